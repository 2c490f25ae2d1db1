import Verif.Proof.Loader
import Verif.Spec.Cut
/-! What a file that was cut short loads as. -/
namespace Ab

open Spec

/-! ### The language does not look behind what it reads -/

theorem num_ext {inp v rest} (b : List Byte) (h : Num inp v rest) : Num (inp ++ b) v (rest ++ b) := by
  obtain ⟨enc, h1, h2, h3, h4⟩ := h
  exact ⟨enc, h1, h2, by rw [h3, List.append_assoc], h4⟩

theorem typeItem_ext {inp t rest} (b : List Byte) (h : TypeItem inp t rest) : TypeItem (inp ++ b) t (rest ++ b) := by
  obtain ⟨a, c, h1, h2, h3⟩ := h
  refine ⟨a ++ b, c ++ b, by rw [h1]; rfl, ?_, ?_⟩
  · have := num_ext b h2; rwa [List.append_assoc] at this
  · have := num_ext b h3; rwa [List.append_assoc] at this

theorem many_ext {α : Type} {P : List Byte → α → List Byte → Prop} (b : List Byte)
    (hP : ∀ inp x rest, P inp x rest → P (inp ++ b) x (rest ++ b)) {inp xs rest} (h : Many P inp xs rest) :
    Many P (inp ++ b) xs (rest ++ b) := by
  induction h with
  | nil => exact Many.nil _
  | cons h _ ih => exact Many.cons (hP _ _ _ h) ih

theorem sized_ext {α : Type} {P : List Byte → α → List Byte → Prop} (b : List Byte)
    (hP : ∀ inp x rest, P inp x rest → P (inp ++ b) x (rest ++ b)) {inp xs rest} (h : Sized P inp xs rest) :
    Sized P (inp ++ b) xs (rest ++ b) := by
  obtain ⟨size, a, c, h1, h2, h3, h4⟩ := h
  refine ⟨size, a ++ b, c ++ b, num_ext b h1, num_ext b h2, many_ext b hP h3, ?_⟩
  simp only [List.length_append]; omega

theorem bodies_ext {total m i inp fs rest} (b : List Byte) (h : Bodies total m i inp fs rest) :
    Bodies (total + b.length) m i (inp ++ b) fs (rest ++ b) := by
  induction h with
  | nil => exact Bodies.nil _ _
  | cons h1 h2 h3 _ ih =>
    obtain ⟨e1, e2⟩ := h1
    have := Bodies.cons (total := total + b.length) ⟨num_ext b e1, num_ext b e2⟩
      (by rw [List.length_append]; omega) h3 (by rw [List.drop_append_of_le_length h2]; exact ih)
    rwa [List.length_append, Nat.add_sub_add_right] at this

theorem section_ext {total m inp m' rest} (b : List Byte) (h : SectionItem total m inp m' rest) :
    SectionItem (total + b.length) m (inp ++ b) m' (rest ++ b) := by
  cases h with
  | types h => exact SectionItem.types (sized_ext b (fun _ _ _ h => typeItem_ext b h) h)
  | decls h => exact SectionItem.decls (sized_ext (P := Word) b (fun _ _ _ h => num_ext b h) h)
  | code h1 h2 h3 h4 => exact SectionItem.code (num_ext b h1) (num_ext b h2) (bodies_ext b h3) h4

theorem sections_ext {total m inp m' rest} (b : List Byte) (h : Sections total m inp m' rest) :
    Sections (total + b.length) m (inp ++ b) m' (rest ++ b) := by
  induction h with
  | nil => exact Sections.nil _ _
  | cons h1 _ ih => exact Sections.cons (section_ext b h1) ih

/-! ### It is unambiguous -/

theorem num_det {inp v r v' r'} (h : Num inp v r) (h' : Num inp v' r') : v = v' ∧ r = r' := by
  obtain ⟨w, p, e, g, d, _⟩ := num_bwd (bs := inp) (pos := 0) (by omega) (by rw [List.drop_zero]; exact h)
  obtain ⟨w', p', e', g', d', _⟩ := num_bwd (bs := inp) (pos := 0) (by omega) (by rw [List.drop_zero]; exact h')
  rw [e] at e'
  injection e' with e'
  injection e' with e1 e2
  rw [d, d', ← g, ← g', e1, e2]
  exact ⟨rfl, rfl⟩

theorem section_det {total m inp m1 r1 m2 r2} (hl : inp.length ≤ total) (h : SectionItem total m inp m1 r1)
    (h' : SectionItem total m inp m2 r2) : m1 = m2 ∧ r1 = r2 := by
  have hlen : (List.replicate (total - inp.length) 0#8 ++ inp).length = total := by
    rw [List.length_append, List.length_replicate]; omega
  have hd : (List.replicate (total - inp.length) 0#8 ++ inp).drop (total - inp.length) = inp :=
    List.drop_left' List.length_replicate
  rw [← hlen] at h h'
  have hp : total - inp.length ≤ (List.replicate (total - inp.length) 0#8 ++ inp).length := by omega
  obtain ⟨p, e, d, _⟩ := section_bwd hp hd h
  obtain ⟨p', e', d', _⟩ := section_bwd hp hd h'
  rw [e] at e'
  injection e' with e'
  injection e' with e1 e2
  rw [d, d', e2]
  exact ⟨e1, rfl⟩

theorem sections_next {total m inp m1 mid m' rest} (hl : inp.length ≤ total) (h : SectionItem total m inp m1 mid)
    (h' : Sections total m inp m' rest) : (m' = m ∧ rest = inp) ∨ Sections total m1 mid m' rest := by
  cases h' with
  | nil => exact .inl ⟨rfl, rfl⟩
  | cons g gs =>
    obtain ⟨rfl, rfl⟩ := section_det hl h g
    exact .inr gs

theorem sections_nil {total m m' rest} (h : Sections total m [] m' rest) : m' = m ∧ rest = [] := by
  cases h with
  | nil => exact ⟨rfl, rfl⟩
  | cons g _ => cases g

theorem sections_append {total m inp m1 mid m' rest} (h : Sections total m inp m1 mid)
    (h' : Sections total m1 mid m' rest) : Sections total m inp m' rest := by
  induction h with
  | nil => exact h'
  | cons g _ ih => exact Sections.cons g (ih h')

theorem bodies_det {total m i inp fs d} (h : Bodies total m i inp fs d) :
    ∀ {fs' d'}, Bodies total m i inp fs' d' → fs'.length = fs.length → d' = d := by
  induction h with
  | nil =>
    intro fs' d' h' hl
    cases h' with
    | nil => rfl
    | cons _ _ _ _ => cases hl
  | cons h1 _ _ _ ih =>
    intro fs' d' h' hl
    cases h' with
    | nil => cases hl
    | cons g1 _ _ g4 =>
      obtain ⟨rfl, rfl⟩ := num_det h1.1 g1.1
      exact ih g4 (by simpa using hl)

/-- What sections add, they add at the end. -/
theorem section_grows {total m inp m' rest} (h : SectionItem total m inp m' rest) :
    m.types <+: m'.types ∧ m.funcTypes <+: m'.funcTypes ∧ m.funcs <+: m'.funcs := by
  cases h with
  | types _ => exact ⟨List.prefix_append _ _, List.prefix_rfl, List.prefix_rfl⟩
  | decls _ => exact ⟨List.prefix_rfl, List.prefix_append _ _, List.prefix_rfl⟩
  | code _ _ _ _ => exact ⟨List.prefix_rfl, List.prefix_rfl, List.prefix_append _ _⟩

theorem sections_grow {total m inp m' rest} (h : Sections total m inp m' rest) :
    m.types <+: m'.types ∧ m.funcTypes <+: m'.funcTypes ∧ m.funcs <+: m'.funcs := by
  induction h with
  | nil => exact ⟨List.prefix_rfl, List.prefix_rfl, List.prefix_rfl⟩
  | cons h _ ih =>
    obtain ⟨a, b, c⟩ := section_grows h
    exact ⟨a.trans ih.1, b.trans ih.2.1, c.trans ih.2.2⟩

/-! ### Written files -/

theorem writeModule_eq (wm : WModule) : writeModule wm =
    header ++ (appendTypeSection wm.types ++ (appendFuncSection wm.funcs ++ appendCodeSection wm.codes)) := by
  unfold writeModule; rw [leHeader]; simp only [List.append_assoc]

theorem word_written (v : U32) (r : List Byte) : Word (appendVaruint32 v ++ r) v r := by
  have h := readVaru32_at (bs := appendVaruint32 v ++ r) (pos := 0) (v := v) ⟨[], r, rfl, rfl⟩
  have := (word_fwd (Nat.zero_le _) _ _ h).1
  rw [List.drop_zero, Nat.zero_add, List.drop_left] at this
  exact this

theorem num_written (n : Nat) (hn : n < 2 ^ 32) (r : List Byte) : Num (varSize n ++ r) n r := by
  have := word_written (BitVec.ofNat 32 n) r
  unfold Word at this
  rwa [BitVec.toNat_ofNat, Nat.mod_eq_of_lt hn] at this

theorem types_written {ts : List FuncType} (hne : ts ≠ []) (hsz : (appendTypeSection ts).length < 2 ^ 32) (m : Module)
    (pre tail : List Byte) :
    SectionItem (pre ++ appendTypeSection ts ++ tail).length m (appendTypeSection ts ++ tail)
      ⟨m.types ++ ts, m.funcTypes, m.funcs⟩ tail := by
  have h := typeSection_step (bs := pre ++ appendTypeSection ts ++ tail) (pos := pre.length)
    (by simpa using hne) m (At.append _ _ _) hsz
  have := (section_fwd (by simp only [List.length_append]; omega) h).1
  rw [List.append_assoc, List.drop_left, ← List.append_assoc, ← List.length_append, List.drop_left] at this
  exact this

theorem decls_written {ts : List U32} (hne : ts ≠ []) (hsz : (appendFuncSection ts).length < 2 ^ 32) (m : Module)
    (pre tail : List Byte) :
    SectionItem (pre ++ appendFuncSection ts ++ tail).length m (appendFuncSection ts ++ tail)
      ⟨m.types, m.funcTypes ++ ts, m.funcs⟩ tail := by
  have h := funcSection_step (bs := pre ++ appendFuncSection ts ++ tail) (pos := pre.length)
    (by simpa using hne) m (At.append _ _ _) hsz
  have := (section_fwd (by simp only [List.length_append]; omega) h).1
  rw [List.append_assoc, List.drop_left, ← List.append_assoc, ← List.length_append, List.drop_left] at this
  exact this

theorem types_absent {ts : List FuncType} : appendTypeSection ts = [] ↔ ts = [] := by
  unfold appendTypeSection appendSection
  by_cases h : ts.length = 0
  · rw [if_pos h]; simpa using h
  · rw [if_neg h]; simp only [List.cons_append, List.nil_append]
    constructor
    · intro h; cases h
    · rintro rfl; exact absurd rfl h

theorem decls_absent {ts : List U32} : appendFuncSection ts = [] ↔ ts = [] := by
  unfold appendFuncSection appendSection
  by_cases h : ts.length = 0
  · rw [if_pos h]; simpa using h
  · rw [if_neg h]; simp only [List.cons_append, List.nil_append]
    constructor
    · intro h; cases h
    · rintro rfl; exact absurd rfl h

/-- The bytes of the code entries. -/
abbrev entries (cs : List CodeEntry) : List Byte := (cs.map appendCode).flatten

theorem code_written {cs : List CodeEntry} (hne : cs ≠ []) : appendCodeSection cs =
    0x0a#8 :: (varSize (varSize cs.length ++ entries cs).length ++ (varSize cs.length ++ entries cs)) := by
  unfold appendCodeSection appendSection
  rw [if_neg (by simpa using hne)]
  rfl

theorem code_absent {ts : List CodeEntry} : appendCodeSection ts = [] ↔ ts = [] := by
  constructor
  · intro h
    exact Classical.byContradiction fun hn => by rw [code_written hn] at h; cases h
  · rintro rfl; rfl

/-- All number fields of the code section are below 2^32. -/
theorem code_small {cs : List CodeEntry} (hsz : (appendCodeSection cs).length < 2 ^ 32) :
    (varSize cs.length ++ entries cs).length < 2 ^ 32 ∧ cs.length < 2 ^ 32 ∧
    ∀ c ∈ cs, (appendVaruint32 c.nregs ++ c.body).length < 2 ^ 32 := by
  by_cases hne : cs = []
  · subst hne; exact ⟨by decide +kernel, by decide, by simp⟩
  rw [code_written hne] at hsz
  simp only [List.length_cons, List.length_append] at hsz
  have hcnt : cs.length ≤ (entries cs).length :=
    flatten_length_ge appendCode cs (fun t _ => by
      unfold appendCode
      rw [List.length_append]
      have := (appendVaruint32_length (BitVec.ofNat 32 (appendVaruint32 t.nregs ++ t.body).length)).1
      unfold varSize
      omega)
  refine ⟨by rw [List.length_append]; omega, by omega, fun c hc => ?_⟩
  have : (appendCode c).length ≤ (entries cs).length := flatten_mem_length (List.mem_map_of_mem hc)
  rw [appendCode_length] at this
  omega

theorem entry_written (c : CodeEntry) (hc : (appendVaruint32 c.nregs ++ c.body).length < 2 ^ 32) (r : List Byte) :
    Entry (appendCode c ++ r) (appendVaruint32 c.nregs ++ c.body).length
      (appendVaruint32 c.nregs ++ (c.body ++ r)) c.nregs (c.body ++ r) := by
  refine ⟨?_, word_written _ _⟩
  have := num_written _ hc (appendVaruint32 c.nregs ++ (c.body ++ r))
  unfold appendCode
  simpa only [List.append_assoc] using this

theorem bodies_written (total : Nat) (m : Module) : ∀ (cs : List CodeEntry) (i : Nat) (r : List Byte),
    (∀ c ∈ cs, (appendVaruint32 c.nregs ++ c.body).length < 2 ^ 32) →
    (∀ j, j < cs.length → ∃ ti t, TypeOf m (i + j) ti t) →
    ∃ fs, fs.length = cs.length ∧ Bodies total m i (entries cs ++ r) fs r
  | [], i, r, _, _ => ⟨[], rfl, Bodies.nil _ _⟩
  | c :: cs, i, r, hc, ht => by
    obtain ⟨ti, t, h0⟩ := ht 0 (by simp)
    obtain ⟨fs, hl, hb⟩ := bodies_written total m cs (i + 1) r (fun c h => hc c (by simp [h]))
      (fun j hj => by
        have := ht (j + 1) (by simp; omega)
        rwa [show i + (j + 1) = i + 1 + j by omega] at this)
    have he := entry_written c (hc c (by simp)) (entries cs ++ r)
    have e1 : entries (c :: cs) ++ r = appendCode c ++ (entries cs ++ r) := by
      simp only [entries, List.map_cons, List.flatten_cons, List.append_assoc]
    have hB := Bodies.cons (total := total) he (by simp only [List.length_append]; omega) h0
      (by rw [← List.append_assoc, List.drop_left]; exact hb)
    rw [← e1] at hB
    exact ⟨_, by rw [List.length_cons, hl, List.length_cons], hB⟩

theorem typed {wm : WModule} (hwf : WellFormed wm) (j : Nat) (hj : j < wm.codes.length) :
    ∃ ti t, TypeOf ⟨wm.types, wm.funcs, []⟩ (0 + j) ti t := by
  have hj' : j < wm.funcs.length := by rw [hwf.1]; exact hj
  have h2 := hwf.2 _ (List.getElem_mem hj')
  exact ⟨wm.funcs[j], wm.types[wm.funcs[j].toNat], by simp [List.getElem?_eq_getElem hj'], by simp [List.getElem?_eq_getElem h2]⟩

/-- Where the sections of a written file start, and what has been read until there. -/
theorem written_places (wm : WModule) (hwf : WellFormed wm) (hfit : Fits wm) {m : Module} {r : List Byte}
    (h : Sections (writeModule wm).length ⟨[], [], []⟩
      (appendTypeSection wm.types ++ (appendFuncSection wm.funcs ++ appendCodeSection wm.codes)) m r) :
    (wm.types ≠ [] ∧ m = ⟨[], [], []⟩ ∧
      r = appendTypeSection wm.types ++ (appendFuncSection wm.funcs ++ appendCodeSection wm.codes)) ∨
    (wm.funcs ≠ [] ∧ m = ⟨wm.types, [], []⟩ ∧ r = appendFuncSection wm.funcs ++ appendCodeSection wm.codes) ∨
    (wm.codes ≠ [] ∧ m = ⟨wm.types, wm.funcs, []⟩ ∧ r = appendCodeSection wm.codes) ∨
    (r = [] ∧ Loads (writeModule wm) m) := by
  obtain ⟨f1, f2, f3⟩ := hfit
  have hL : Loads (writeModule wm) m → r = [] → (r = [] ∧ Loads (writeModule wm) m) := fun a b => ⟨b, a⟩
  have hall := h
  have hlen : (writeModule wm).length = 8 + ((appendTypeSection wm.types).length +
      ((appendFuncSection wm.funcs).length + (appendCodeSection wm.codes).length)) := by
    rw [writeModule_eq]; simp only [List.length_append]; rfl
  by_cases h1 : wm.types = []
  case neg =>
    have s1 := types_written h1 f1 ⟨[], [], []⟩ header (appendFuncSection wm.funcs ++ appendCodeSection wm.codes)
    rw [List.append_assoc, ← writeModule_eq] at s1
    rcases sections_next (by rw [hlen]; simp only [List.length_append]; omega) s1 h with g | g
    · exact .inl ⟨h1, g.1, g.2⟩
    · revert g
      exact rest_of wm hwf f2 f3 hlen hall
  case pos =>
    have h' := h
    rw [types_absent.2 h1, List.nil_append] at h'
    refine rest_of wm hwf f2 f3 hlen hall ?_
    simp only [List.nil_append]
    rw [h1]; exact h'
where
  rest_of (wm : WModule) (hwf : WellFormed wm) (f2 : (appendFuncSection wm.funcs).length < 2 ^ 32)
      (f3 : (appendCodeSection wm.codes).length < 2 ^ 32)
      (hlen : (writeModule wm).length = 8 + ((appendTypeSection wm.types).length +
      ((appendFuncSection wm.funcs).length + (appendCodeSection wm.codes).length))) {m : Module} {r : List Byte}
      (hall : Sections (writeModule wm).length ⟨[], [], []⟩
        (appendTypeSection wm.types ++ (appendFuncSection wm.funcs ++ appendCodeSection wm.codes)) m r)
      (h : Sections (writeModule wm).length ⟨[] ++ wm.types, [], []⟩
        (appendFuncSection wm.funcs ++ appendCodeSection wm.codes) m r) :
      (wm.types ≠ [] ∧ m = ⟨[], [], []⟩ ∧
        r = appendTypeSection wm.types ++ (appendFuncSection wm.funcs ++ appendCodeSection wm.codes)) ∨
      (wm.funcs ≠ [] ∧ m = ⟨wm.types, [], []⟩ ∧ r = appendFuncSection wm.funcs ++ appendCodeSection wm.codes) ∨
      (wm.codes ≠ [] ∧ m = ⟨wm.types, wm.funcs, []⟩ ∧ r = appendCodeSection wm.codes) ∨
      (r = [] ∧ Loads (writeModule wm) m) := by
    rw [List.nil_append] at h
    by_cases h2 : wm.funcs = []
    · have h3 : wm.codes = [] := by
        have := hwf.1; rw [h2] at this; exact List.length_eq_zero_iff.1 this.symm
      rw [decls_absent.2 h2, code_absent.2 h3] at h
      obtain ⟨g1, g2⟩ := sections_nil h
      subst g2
      exact .inr (.inr (.inr ⟨rfl, _, writeModule_eq wm, hall⟩))
    · have h3 : wm.codes ≠ [] := by
        intro e
        have := hwf.1; rw [e] at this; exact h2 (List.length_eq_zero_iff.1 this)
      have s2 := decls_written h2 f2 ⟨wm.types, [], []⟩ (header ++ appendTypeSection wm.types) (appendCodeSection wm.codes)
      rw [List.append_assoc, List.append_assoc, ← writeModule_eq] at s2
      rcases sections_next (by rw [hlen]; simp only [List.length_append]; omega) s2 h with g | g
      · exact .inr (.inl ⟨h2, g.1, g.2⟩)
      rw [List.nil_append] at g
      obtain ⟨k1, k2, k3⟩ := code_small f3
      obtain ⟨fs, hl, hb⟩ := bodies_written (writeModule wm).length ⟨wm.types, wm.funcs, []⟩ wm.codes 0 []
        k3 (fun j hj => typed hwf j hj)
      have s3 : SectionItem (writeModule wm).length ⟨wm.types, wm.funcs, []⟩ (appendCodeSection wm.codes)
          ⟨wm.types, wm.funcs, [] ++ fs⟩ [] := by
        rw [code_written h3]
        refine SectionItem.code (num_written _ k1 _) ?_ (by rw [List.append_nil] at hb; exact hb)
          (by rw [hl]; exact hwf.1.symm)
        show Num _ wm.funcs.length _
        rw [hwf.1]
        exact num_written _ k2 _
      rcases sections_next (by rw [hlen]; omega) s3 g with g' | g'
      · exact .inr (.inr (.inl ⟨h3, g'.1, g'.2⟩))
      · obtain ⟨g1, g2⟩ := sections_nil g'
        subst g2
        exact .inr (.inr (.inr ⟨rfl, _, writeModule_eq wm, hall⟩))

/-- The front of a written file, whatever follows it. -/
theorem front_types {wm : WModule} (hfit : Fits wm) (tail : List Byte) :
    Sections (header ++ (appendTypeSection wm.types ++ tail)).length ⟨[], [], []⟩
      (appendTypeSection wm.types ++ tail) ⟨wm.types, [], []⟩ tail := by
  by_cases h1 : wm.types = []
  · rw [types_absent.2 h1, h1]; exact Sections.nil _ _
  · have := types_written h1 hfit.1 ⟨[], [], []⟩ header tail
    rw [List.append_assoc] at this
    exact Sections.cons this (Sections.nil _ _)

theorem front_decls {wm : WModule} (hfit : Fits wm) (tail : List Byte) :
    Sections (header ++ (appendTypeSection wm.types ++ (appendFuncSection wm.funcs ++ tail))).length ⟨[], [], []⟩
      (appendTypeSection wm.types ++ (appendFuncSection wm.funcs ++ tail)) ⟨wm.types, wm.funcs, []⟩ tail := by
  refine sections_append (front_types hfit _) ?_
  by_cases h1 : wm.funcs = []
  · rw [decls_absent.2 h1, h1]; exact Sections.nil _ _
  · have := decls_written h1 hfit.2.1 ⟨wm.types, [], []⟩ (header ++ appendTypeSection wm.types) tail
    rw [List.append_assoc, List.append_assoc] at this
    exact Sections.cons this (Sections.nil _ _)

/-- Reading the front of a written file. -/
theorem cut_sections {wm : WModule} {a b ra : List Byte} {m : Module} {r : List Byte} (hab : a ++ b = writeModule wm)
    (ha : a = header ++ ra) (h : Sections a.length ⟨[], [], []⟩ ra m r) :
    Sections (writeModule wm).length ⟨[], [], []⟩
      (appendTypeSection wm.types ++ (appendFuncSection wm.funcs ++ appendCodeSection wm.codes)) m (r ++ b) := by
  have h2 := sections_ext b h
  rw [← List.length_append, hab] at h2
  have : ra ++ b = appendTypeSection wm.types ++ (appendFuncSection wm.funcs ++ appendCodeSection wm.codes) := by
    rw [ha, writeModule_eq, List.append_assoc] at hab
    exact List.append_cancel_left hab
  rwa [this] at h2

theorem cut_loads {wm : WModule} (hwf : WellFormed wm) (hfit : Fits wm) {a b : List Byte}
    (hab : a ++ b = writeModule wm) {lm : Module} : Loads a lm ↔ CutLoads wm b lm := by
  constructor
  · rintro ⟨ra, ha, h⟩
    rcases written_places wm hwf hfit (cut_sections hab ha h) with ⟨_, g1, g2⟩ | ⟨_, g1, g2⟩ | ⟨_, g1, g2⟩ | ⟨g1, g2⟩
    · exact .inl ⟨g2, g1⟩
    · exact .inr (.inl ⟨g2, g1⟩)
    · exact .inr (.inr (.inl ⟨g2, g1⟩))
    · exact .inr (.inr (.inr ⟨g1, g2⟩))
  · have hw := hab
    rw [writeModule_eq] at hw
    rintro (⟨rfl, rfl⟩ | ⟨rfl, rfl⟩ | ⟨rfl, rfl⟩ | ⟨rfl, h⟩)
    · have := List.append_cancel_right hw
      subst this
      exact ⟨[], by rw [List.append_nil], Sections.nil _ _⟩
    · rw [← List.append_assoc header] at hw
      have := List.append_cancel_right hw
      subst this
      have := front_types hfit []
      rw [List.append_nil] at this
      exact ⟨_, rfl, this⟩
    · rw [← List.append_assoc (appendTypeSection _), ← List.append_assoc header] at hw
      have := List.append_cancel_right hw
      subst this
      have := front_decls hfit []
      rw [List.append_nil] at this
      exact ⟨_, rfl, this⟩
    · rw [List.append_nil] at hab
      rw [hab]; exact h

theorem cut_aborts {wm : WModule} (hwf : WellFormed wm) (hfit : Fits wm) {a b : List Byte}
    (hab : a ++ b = writeModule wm) : Aborts a ↔ LostInBody wm b := by
  obtain ⟨k1, k2, k3⟩ := code_small hfit.2.2
  constructor
  · rintro ⟨ra, m, r, ha, h, hd⟩
    have hr : r ≠ [] := by rintro rfl; cases hd
    have hplace := written_places wm hwf hfit (cut_sections hab ha h)
    have hNa : (writeModule wm).length = a.length + b.length := by rw [← hab, List.length_append]
    have first : ∀ (c : Byte) (x : List Byte), r ++ b = c :: x → ∃ r', r = c :: r' ∧ r' ++ b = x := by
      intro c x e
      cases r with
      | nil => exact absurd rfl hr
      | cons y r' =>
        rw [List.cons_append] at e
        injection e with e1 e2
        exact ⟨r', by rw [e1], e2⟩
    rcases hplace with ⟨hne, _, g⟩ | ⟨hne, _, g⟩ | ⟨hne, gm, g⟩ | ⟨g, _⟩
    · exfalso
      have : ∃ x, appendTypeSection wm.types = 0x01#8 :: x := by
        unfold appendTypeSection appendSection
        rw [if_neg (by simpa using hne)]
        exact ⟨_, rfl⟩
      obtain ⟨x, hx⟩ := this
      rw [hx, List.cons_append] at g
      obtain ⟨r', rfl, _⟩ := first _ _ g
      cases hd with
      | unsupported _ n1 _ _ _ => exact n1 rfl
    · exfalso
      have : ∃ x, appendFuncSection wm.funcs = 0x03#8 :: x := by
        unfold appendFuncSection appendSection
        rw [if_neg (by simpa using hne)]
        exact ⟨_, rfl⟩
      obtain ⟨x, hx⟩ := this
      rw [hx, List.cons_append] at g
      obtain ⟨r', rfl, _⟩ := first _ _ g
      cases hd with
      | unsupported _ _ n1 _ _ => exact n1 rfl
    · rw [code_written hne] at g
      obtain ⟨r', rfl, g'⟩ := first _ _ g
      subst gm
      cases hd with
      | unsupported _ _ _ n1 _ => exact absurd rfl n1
      | @entry _ ssize b' c' fs d size start nregs body h1 h2 h3 h4 h5 h6 =>
        have e1 := num_ext b h1
        rw [g'] at e1
        have w1 := (num_det e1 (num_written _ k1 _)).2
        have e2 := num_ext b h2
        rw [w1] at e2
        have w2 := (num_det e2 (num_written _ k2 _)).2
        have e3 := bodies_ext b h3
        rw [w2, ← hNa] at e3
        have h4' : fs.length < wm.codes.length := by rw [← hwf.1]; exact h4
        have hsplit : wm.codes = wm.codes.take fs.length ++ (wm.codes[fs.length] :: wm.codes.drop (fs.length + 1)) := by
          rw [← List.drop_eq_getElem_cons h4', List.take_append_drop]
        generalize hpre : wm.codes.take fs.length = pre at hsplit
        generalize hcc : wm.codes[fs.length] = c at hsplit
        generalize hpost : wm.codes.drop (fs.length + 1) = post at hsplit
        have hprel : pre.length = fs.length := by rw [← hpre, List.length_take]; omega
        obtain ⟨fs', hl, hb⟩ := bodies_written (writeModule wm).length ⟨wm.types, wm.funcs, []⟩ pre 0
          (appendCode c ++ entries post) (fun c hc => k3 c (by rw [hsplit]; simp [hc]))
          (fun j hj => typed hwf j (by omega))
        have heq : entries pre ++ (appendCode c ++ entries post) = entries wm.codes := by
          rw [hsplit]; simp [entries]
        rw [heq] at hb
        have w3 := bodies_det hb e3 (by omega)
        have hc := k3 c (by rw [hsplit]; simp)
        have he := entry_written c hc (entries post)
        have e5 := num_ext b h5.1
        rw [w3] at e5
        obtain ⟨q1, q2⟩ := num_det e5 he.1
        have e6 := num_ext b h5.2
        rw [q2] at e6
        obtain ⟨_, q3⟩ := num_det e6 he.2
        rcases h6 with h6 | h6
        · have l2 := congrArg List.length q2
          simp only [List.length_append] at l2 q1
          have hlt : (entries post).length < b.length := by omega
          rcases List.append_eq_append_iff.1 q3 with ⟨z, z1, z2⟩ | ⟨z, z1, z2⟩
          · refine ⟨pre, c, post, body, z, hsplit, z1, ?_, z2⟩
            rintro rfl
            rw [z2] at hlt
            simp at hlt
          · exfalso
            rw [z2, List.length_append] at hlt
            omega
        · exfalso
          obtain ⟨ti, t, ht⟩ := typed hwf fs.length h4'
          rw [Nat.zero_add] at ht
          exact h6 ⟨ti, t, ht⟩
    · exfalso
      exact hr (List.append_eq_nil_iff.1 g).1
  · rintro ⟨pre, c, post, q, z, hsplit, hbody, hz, rfl⟩
    have hne : wm.codes ≠ [] := by rw [hsplit]; simp
    have hheq : entries wm.codes = entries pre ++ (varSize (appendVaruint32 c.nregs ++ c.body).length ++
        (appendVaruint32 c.nregs ++ q)) ++ (z ++ entries post) := by
      rw [hsplit]
      simp only [entries, List.map_append, List.map_cons, List.flatten_append, List.flatten_cons, appendCode]
      rw [hbody]
      simp only [List.append_assoc]
    have hcode : appendCodeSection wm.codes = (0x0a#8 :: (varSize (varSize wm.codes.length ++ entries wm.codes).length ++
        (varSize wm.codes.length ++ (entries pre ++ (varSize (appendVaruint32 c.nregs ++ c.body).length ++
        (appendVaruint32 c.nregs ++ q)))))) ++ (z ++ entries post) := by
      rw [code_written hne]
      generalize (varSize (varSize wm.codes.length ++ entries wm.codes).length) = S
      rw [hheq]
      simp only [List.cons_append, List.append_assoc]
    generalize hfront : (0x0a#8 :: (varSize (varSize wm.codes.length ++ entries wm.codes).length ++
        (varSize wm.codes.length ++ (entries pre ++ (varSize (appendVaruint32 c.nregs ++ c.body).length ++
        (appendVaruint32 c.nregs ++ q)))))) = front at hcode
    have ha : a = header ++ (appendTypeSection wm.types ++ (appendFuncSection wm.funcs ++ front)) := by
      rw [writeModule_eq, hcode] at hab
      rw [← List.append_assoc (appendFuncSection wm.funcs), ← List.append_assoc (appendTypeSection wm.types),
        ← List.append_assoc header] at hab
      exact List.append_cancel_right hab
    refine ⟨_, _, _, ha, by rw [ha]; exact front_decls hfit front, ?_⟩
    obtain ⟨fs, hl, hb⟩ := bodies_written a.length ⟨wm.types, wm.funcs, []⟩ pre 0
      (varSize (appendVaruint32 c.nregs ++ c.body).length ++ (appendVaruint32 c.nregs ++ q))
      (fun c hc => k3 c (by rw [hsplit]; simp [hc]))
      (fun j hj => typed hwf j (by rw [hsplit, List.length_append]; omega))
    have hc := k3 c (by rw [hsplit]; simp)
    rw [← hfront]
    refine Deadly.entry (num_written _ k1 _) ?_ hb ?_ ⟨num_written _ hc _, word_written _ _⟩ (.inl ?_)
    · show Num _ wm.funcs.length _
      rw [hwf.1]
      exact num_written _ k2 _
    · show fs.length < wm.funcs.length
      rw [hwf.1, hl, hsplit, List.length_append, List.length_cons]; omega
    · rw [hbody]
      have : 0 < z.length := List.length_pos_iff.2 hz
      simp only [List.length_append]; omega

end Ab
