import Verif.Model.LoaderMem
import Verif.Props.Loader

/-!
Property theorem C97: how much memory a module file makes the loader use.
-/

namespace Ab
open Spec

/-- The elements of a loaded module: types with their arguments and results, declarations, functions. -/
def elements (m : Module) : Nat :=
  (m.types.map (fun t => 1 + t.args.length + t.rets.length)).sum + m.funcTypes.length + m.funcs.length

/-- The full claim: whatever the file, it makes the loader ask for no more elements than the file has bytes. -/
def C97_full : Prop := ∀ (bs : List Byte), ∀ r ∈ compileRequests bs, r.2 ≤ bs.length

theorem num_shorter {inp : List Byte} {v : Nat} {rest : List Byte} (h : Num inp v rest) : rest.length + 1 ≤ inp.length := by
  obtain ⟨enc, h1, _, rfl, _⟩ := h
  cases enc with
  | nil => simp [IsLeb] at h1
  | cons b bs => simp <;> omega

theorem many_types {inp : List Byte} {ts : List FuncType} {rest : List Byte} (h : Many TypeItem inp ts rest) :
    (ts.map (fun t => 1 + t.args.length + t.rets.length)).sum + rest.length ≤ inp.length := by
  induction h with
  | nil => simp
  | cons h1 _ ih =>
    obtain ⟨a, b, h1, h2, h3⟩ := h1
    have g2 := num_shorter h2
    have g3 := num_shorter h3
    rw [h1]
    simp only [List.length_append, List.map_cons, List.sum_cons, List.length_cons] at *
    omega

theorem many_words {inp : List Byte} {ts : List U32} {rest : List Byte} (h : Many Word inp ts rest) :
    ts.length + rest.length ≤ inp.length := by
  induction h with
  | nil => simp
  | cons h1 _ ih =>
    have g := num_shorter h1
    simp only [List.length_cons] at *
    omega

theorem bodies_shorter {total : Nat} {m : Module} {i : Nat} {inp : List Byte} {fs : List Func} {rest : List Byte}
    (h : Bodies total m i inp fs rest) : fs.length + rest.length ≤ inp.length := by
  induction h with
  | nil => simp
  | cons h1 _ _ _ ih =>
    have g := num_shorter h1.1
    simp only [List.length_cons, List.length_drop] at *
    omega

theorem item_elements {total : Nat} {m m' : Module} {inp rest : List Byte} (h : SectionItem total m inp m' rest) :
    elements m' + rest.length ≤ elements m + inp.length := by
  unfold elements
  cases h with
  | types h =>
    obtain ⟨size, a, b, h1, h2, h3, _⟩ := h
    have g1 := num_shorter h1
    have g2 := num_shorter h2
    have g3 := many_types h3
    simp only [List.map_append, List.sum_append, List.length_cons] at *
    omega
  | decls h =>
    obtain ⟨size, a, b, h1, h2, h3, _⟩ := h
    have g1 := num_shorter h1
    have g2 := num_shorter h2
    have g3 := many_words h3
    simp only [List.length_append, List.length_cons] at *
    omega
  | code h1 h2 h3 h4 =>
    have g1 := num_shorter h1
    have g2 := num_shorter h2
    have g3 := bodies_shorter h3
    simp only [List.length_append, List.length_cons] at *
    omega

theorem sections_elements {total : Nat} {m m' : Module} {inp rest : List Byte} (h : Sections total m inp m' rest) :
    elements m' + rest.length ≤ elements m + inp.length := by
  induction h with
  | nil => exact Nat.le_refl _
  | cons h1 _ ih =>
    have := item_elements h1
    omega

/-- **C97**, loaded modules: the tables of a module hold, all together, at most as many elements as its file has bytes. -/
theorem C97_tables_fit_the_file (bs : List Byte) (lm : Module) (h : compile bs = .ok lm) :
    elements lm + 8 ≤ bs.length := by
  obtain ⟨rest, hb, hs⟩ := (C84_loads_exactly bs lm).1 h
  have := sections_elements hs
  have h0 : elements ⟨[], [], []⟩ = 0 := rfl
  rw [hb]
  simp [header] at *
  omega

theorem readFuncDecls_length {bs : List Byte} : ∀ {n pos ts p}, readFuncDecls bs n pos = .ok (ts, p) → ts.length = n
  | 0, _, _, _, h => by injection h with h; injection h with h; subst h; rfl
  | n + 1, pos, ts, p, h => by
    rw [readFuncDecls] at h
    obtain ⟨⟨t, p1⟩, _, h⟩ := Outcome.bind_eq_ok.1 h
    obtain ⟨⟨ts', p2⟩, h2, h⟩ := Outcome.bind_eq_ok.1 h
    injection h with h; injection h with h; subst h
    simp [readFuncDecls_length h2]

/-- The request of a section that is decoded, and of a code section in any case. -/
theorem sectionRequest_le {bs : List Byte} {m : Module} {pos : Nat} {r : Byte × Nat} (hr : r ∈ sectionRequest bs m pos)
    (h : (∃ m' p, decodeSection bs m pos = .ok (m', p) ∧ m'.funcTypes.length ≤ bs.length) ∨ r.1 = SEC_CODE)
    (hm : m.funcTypes.length ≤ bs.length) : r.2 ≤ bs.length := by
  unfold sectionRequest at hr
  split at hr
  · rename_i code p1 h1
    split at hr
    · rename_i size p2 h2
      split at hr
      · rename_i hc
        split at hr
        · rename_i nf p3 h3
          simp only [List.mem_singleton] at hr
          subst hr
          rcases h with ⟨m', p, hd, hl⟩ | h
          · unfold decodeSection at hd
            simp only [h1, h2, Outcome.ok_bind] at hd
            rw [if_neg (by rw [hc]; decide), if_pos hc] at hd
            unfold decodeFuncSection at hd
            simp only [h3, Outcome.ok_bind] at hd
            obtain ⟨⟨ts, p4⟩, h4, hd⟩ := Outcome.bind_eq_ok.1 hd
            simp only at hd
            split at hd
            · cases hd
            · injection hd with hd; injection hd with hd; subst hd
              have := readFuncDecls_length h4
              simp only [List.length_append] at hl
              simp only
              omega
          · simp only at h
            rw [hc] at h
            exact absurd h (by decide)
        · cases hr
      · split at hr
        · split at hr
          · split at hr
            · cases hr
            · rename_i hn
              simp only [List.mem_singleton] at hr
              subst hr
              simp only
              omega
          · cases hr
        · cases hr
    · cases hr
  · cases hr

theorem loopRequests_le {bs : List Byte} {r : Byte × Nat} : ∀ {f m pos}, pos ≤ bs.length → elements m ≤ pos →
    r ∈ loopRequests bs f m pos → ((∃ lm, compileLoop bs f m pos = .ok lm) ∨ r.1 = SEC_CODE) → r.2 ≤ bs.length
  | 0, m, pos, _, _, hr, _ => by cases hr
  | f + 1, m, pos, hp, he, hr, h => by
    rw [loopRequests] at hr
    split at hr
    · cases hr
    · rename_i hend
      have hm : m.funcTypes.length ≤ bs.length := by unfold elements at he; omega
      have hstep : ∀ {m' p}, decodeSection bs m pos = .ok (m', p) → p ≤ bs.length ∧ elements m' ≤ p := by
        intro m' p hd
        obtain ⟨g1, g2⟩ := section_fwd hp hd
        have := item_elements g1
        simp only [List.length_drop] at this
        exact ⟨g2, by omega⟩
      rcases List.mem_append.1 hr with hr | hr
      · refine sectionRequest_le hr ?_ hm
        rcases h with ⟨lm, h⟩ | h
        · left
          rw [compileLoop, if_neg hend] at h
          obtain ⟨⟨m', p⟩, hd, _⟩ := Outcome.bind_eq_ok.1 h
          have := hstep hd
          refine ⟨m', p, hd, ?_⟩
          have h2 := this.2
          unfold elements at h2
          omega
        · exact .inr h
      · split at hr
        · rename_i m' p hd
          have := hstep hd
          refine loopRequests_le this.1 this.2 hr ?_
          rcases h with ⟨lm, h⟩ | h
          · left
            rw [compileLoop, if_neg hend, hd] at h
            exact ⟨lm, h⟩
          · exact .inr h
        · cases hr

theorem compileRequests_le {bs : List Byte} {r : Byte × Nat} (hr : r ∈ compileRequests bs)
    (h : (∃ lm, compile bs = .ok lm) ∨ r.1 = SEC_CODE) : r.2 ≤ bs.length := by
  unfold compileRequests at hr
  split at hr
  · rename_i pos h1
    have hpos : pos = 8 ∧ pos ≤ bs.length := by
      rcases readHeader_cases bs with ⟨e, hl⟩ | ⟨m, e⟩
      · rw [e] at h1
        injection h1 with h1
        subst h1
        exact ⟨rfl, hl⟩
      · rw [e] at h1; cases h1
    refine loopRequests_le hpos.2 (by show 0 ≤ _; omega) hr ?_
    rcases h with ⟨lm, h⟩ | h
    · left
      unfold compile at h
      rw [h1] at h
      exact ⟨lm, h⟩
    · exact .inr h
  · cases hr

/-- **C97**, the part that holds: a file that loads makes the loader ask for no more elements than it has bytes, and so does any
file for the functions of its code sections. -/
theorem C97_requests_partial (bs : List Byte) : ∀ r ∈ compileRequests bs,
    (∃ lm, compile bs = .ok lm) ∨ r.1 = 0x0a#8 → r.2 ≤ bs.length :=
  fun _ hr h => compileRequests_le hr h

/-- Elements asked for by sections of one kind. -/
def asked (c : Byte) (l : List (Byte × Nat)) : Nat := ((l.filter (·.1 = c)).map (·.2)).sum

theorem asked_append (c : Byte) (l l' : List (Byte × Nat)) : asked c (l ++ l') = asked c l + asked c l' := by
  simp [asked]

theorem decodeCodeEntries_length {bs : List Byte} {m : Module} : ∀ {n i pos fs p},
    decodeCodeEntries bs m n i pos = .ok (fs, p) → fs.length = n
  | 0, _, _, _, _, h => by injection h with h; injection h with h; subst h; rfl
  | n + 1, i, pos, fs, p, h => by
    rw [decodeCodeEntries] at h
    obtain ⟨⟨t, p1⟩, _, h⟩ := Outcome.bind_eq_ok.1 h
    obtain ⟨⟨ts', p2⟩, h2, h⟩ := Outcome.bind_eq_ok.1 h
    injection h with h; injection h with h; subst h
    simp [decodeCodeEntries_length h2]

theorem sectionRequest_exact {bs : List Byte} {m m' : Module} {pos p : Nat} (hd : decodeSection bs m pos = .ok (m', p)) :
    m'.funcTypes.length = m.funcTypes.length + asked SEC_FUNC (sectionRequest bs m pos) ∧
      m'.funcs.length = m.funcs.length + asked SEC_CODE (sectionRequest bs m pos) := by
  unfold decodeSection at hd
  obtain ⟨⟨code, p1⟩, h1, hd⟩ := Outcome.bind_eq_ok.1 hd
  obtain ⟨⟨size, p2⟩, h2, hd⟩ := Outcome.bind_eq_ok.1 hd
  unfold sectionRequest
  simp only [h1, h2] at hd ⊢
  split at hd
  · rename_i hc
    rw [if_neg (by rw [hc]; decide), if_neg (by rw [hc]; decide)]
    unfold decodeTypeSection at hd
    obtain ⟨⟨n, p3⟩, h3, hd⟩ := Outcome.bind_eq_ok.1 hd
    obtain ⟨⟨ts, p4⟩, h4, hd⟩ := Outcome.bind_eq_ok.1 hd
    simp only at hd
    split at hd
    · cases hd
    · injection hd with hd; injection hd with hd; subst hd
      exact ⟨rfl, rfl⟩
  · split at hd
    · rename_i hc
      rw [if_pos hc, hc]
      unfold decodeFuncSection at hd
      obtain ⟨⟨n, p3⟩, h3, hd⟩ := Outcome.bind_eq_ok.1 hd
      obtain ⟨⟨ts, p4⟩, h4, hd⟩ := Outcome.bind_eq_ok.1 hd
      simp only at hd
      split at hd
      · cases hd
      · injection hd with hd; injection hd with hd; subst hd
        have := readFuncDecls_length h4
        rw [h3]
        refine ⟨?_, rfl⟩
        simp only [List.length_append, this]
        rfl
    · rename_i hc2
      rw [if_neg hc2]
      split at hd
      · rename_i hc
        rw [if_pos hc, hc]
        unfold decodeCodeSection at hd
        obtain ⟨⟨n, p3⟩, h3, hd⟩ := Outcome.bind_eq_ok.1 hd
        simp only at hd
        split at hd
        · cases hd
        · rename_i hn
          obtain ⟨⟨fs, p4⟩, h4, hd⟩ := Outcome.bind_eq_ok.1 hd
          injection hd with hd; injection hd with hd; subst hd
          have := decodeCodeEntries_length h4
          rw [h3]
          simp only [if_neg hn]
          refine ⟨rfl, ?_⟩
          simp only [List.length_append, this]
          rfl
      · cases hd

theorem loopRequests_exact {bs : List Byte} : ∀ {f m pos lm}, compileLoop bs f m pos = .ok lm →
    lm.funcTypes.length = m.funcTypes.length + asked SEC_FUNC (loopRequests bs f m pos) ∧
      lm.funcs.length = m.funcs.length + asked SEC_CODE (loopRequests bs f m pos)
  | 0, _, _, _, h => by cases h
  | f + 1, m, pos, lm, h => by
    rw [compileLoop] at h
    rw [loopRequests]
    split at h
    · rename_i he
      rw [if_pos he]
      injection h with h
      subst h
      exact ⟨rfl, rfl⟩
    · rename_i he
      rw [if_neg he]
      obtain ⟨⟨m', p⟩, hd, h⟩ := Outcome.bind_eq_ok.1 h
      rw [hd]
      have h1 := sectionRequest_exact hd
      have h2 := loopRequests_exact h
      simp only [asked_append]
      omega

/-- **C97**, nothing is asked for in vain: a file that loads makes the loader ask for exactly as many declarations and functions as
the module has. -/
theorem C97_requests_exact (bs : List Byte) (lm : Module) (h : compile bs = .ok lm) :
    asked 0x03#8 (compileRequests bs) = lm.funcTypes.length ∧ asked 0x0a#8 (compileRequests bs) = lm.funcs.length := by
  unfold compile at h
  obtain ⟨pos, h1, h⟩ := Outcome.bind_eq_ok.1 h
  have := loopRequests_exact h
  unfold compileRequests
  rw [h1]
  simp only [Module.empty, List.length_nil, Nat.zero_add] at this
  exact ⟨this.1.symm, this.2.symm⟩

/-- **C97**, the full claim is false: fifteen bytes ask for room for 4294967295 declarations (16 GiB). -/
theorem C97_negation : ¬ C97_full := by
  intro h
  have := h (header ++ [0x03#8, 0x05#8, 0xff#8, 0xff#8, 0xff#8, 0xff#8, 0x0f#8]) (0x03#8, 4294967295) (by decide +kernel)
  exact absurd this (by decide)

/-- What the sample file of C84 asks for. -/
example : compileRequests loaderFile = [(0x03#8, 1), (0x0a#8, 1)] ∧ (compile loaderFile).isOk = true := by decide +kernel

end Ab
