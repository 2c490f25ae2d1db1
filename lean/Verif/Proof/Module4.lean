import Verif.Proof.Module3

namespace Ab
open Spec

/-! ### Loaded functions are sound -/

theorem funcsSound_empty (bs : List Byte) : FuncsSound bs Module.empty :=
  ⟨[], rfl, by simp⟩

theorem funcsSound_types {bs m} (ts : List FuncType) (h : FuncsSound bs m) :
    FuncsSound bs { m with types := m.types ++ ts } := by
  obtain ⟨bl, h1, h2⟩ := h
  refine ⟨bl, h1, fun b hb j f hf => ?_⟩
  obtain ⟨h3, ti, h4, h5, h6⟩ := h2 b hb j f hf
  refine ⟨h3, ti, h4, ?_, h6⟩
  simp only
  rw [List.getElem?_append_left (List.getElem?_eq_some_iff.1 h5).1]
  exact h5

theorem funcsSound_decls {bs m} (ts : List U32) (h : FuncsSound bs m) :
    FuncsSound bs { m with funcTypes := m.funcTypes ++ ts } := by
  obtain ⟨bl, h1, h2⟩ := h
  refine ⟨bl, h1, fun b hb j f hf => ?_⟩
  obtain ⟨h3, ti, h4, h6⟩ := h2 b hb j f hf
  refine ⟨h3, ti, ?_, h6⟩
  simp only
  rw [List.getElem?_append_left (List.getElem?_eq_some_iff.1 h4).1]
  exact h4

theorem decodeCodeEntry_sound {bs m i pos f p} (h : decodeCodeEntry bs m i pos = .ok (f, p)) :
    f.body ≤ bs.length ∧
      ∃ ti, m.funcTypes[i]? = some ti ∧ m.types[ti.toNat]? = some f.type ∧ f.typeIdx = ti.toNat ∧
        f.argNregs = f.type.argNregs ∧ f.retNregs = f.type.retNregs ∧
        f.nregs = f.varNregs + f.type.argNregs := by
  unfold decodeCodeEntry at h
  obtain ⟨⟨size, p1⟩, h1, h⟩ := Outcome.bind_eq_ok.1 h
  obtain ⟨⟨nregs, p2⟩, h2, h⟩ := Outcome.bind_eq_ok.1 h
  obtain ⟨p3, h3, h⟩ := Outcome.bind_eq_ok.1 h
  obtain ⟨⟨ti', t⟩, h4, h⟩ := Outcome.bind_eq_ok.1 h
  simp only at h
  cases h
  have hs := readVaru32_safe bs p1
  rw [h2] at hs
  rcases typeFor_cases m i with ⟨ti, t', e1, e2, e3⟩ | ⟨w, e⟩
  · rw [e3] at h4
    cases h4
    exact ⟨hs.2, ti, e1, e2, rfl, rfl, rfl, rfl⟩
  · rw [e] at h4; cases h4

theorem decodeCodeEntries_sound {bs m n i pos fs p} (h : decodeCodeEntries bs m n i pos = .ok (fs, p)) :
    ∀ (j : Nat) (f : Func), fs[j]? = some f → f.body ≤ bs.length ∧
      ∃ ti, m.funcTypes[i + j]? = some ti ∧ m.types[ti.toNat]? = some f.type ∧ f.typeIdx = ti.toNat ∧
        f.argNregs = f.type.argNregs ∧ f.retNregs = f.type.retNregs ∧
        f.nregs = f.varNregs + f.type.argNregs := by
  induction n generalizing i pos fs with
  | zero =>
    cases h
    intro j f hf
    simp at hf
  | succ n ih =>
    rw [decodeCodeEntries] at h
    obtain ⟨⟨f0, p1⟩, h1, h⟩ := Outcome.bind_eq_ok.1 h
    obtain ⟨⟨fs0, p2⟩, h2, h⟩ := Outcome.bind_eq_ok.1 h
    cases h
    intro j f hf
    cases j with
    | zero =>
      simp only [List.getElem?_cons_zero, Option.some.injEq] at hf
      subst hf
      exact decodeCodeEntry_sound h1
    | succ j =>
      simp only [List.getElem?_cons_succ] at hf
      have := ih h2 j f hf
      rwa [show i + 1 + j = i + (j + 1) by omega] at this

theorem decodeSection_sound {bs m pos m' p} (hm : FuncsSound bs m)
    (h : decodeSection bs m pos = .ok (m', p)) : FuncsSound bs m' := by
  unfold decodeSection at h
  obtain ⟨⟨code, p1⟩, h1, h⟩ := Outcome.bind_eq_ok.1 h
  obtain ⟨⟨size, p2⟩, h2, h⟩ := Outcome.bind_eq_ok.1 h
  simp only at h
  split at h
  · unfold decodeTypeSection at h
    obtain ⟨⟨n, p3⟩, _, h⟩ := Outcome.bind_eq_ok.1 h
    obtain ⟨⟨ts, p4⟩, _, h⟩ := Outcome.bind_eq_ok.1 h
    simp only at h
    split at h
    · cases h
    · cases h
      exact funcsSound_types ts hm
  · split at h
    · unfold decodeFuncSection at h
      obtain ⟨⟨n, p3⟩, _, h⟩ := Outcome.bind_eq_ok.1 h
      obtain ⟨⟨ts, p4⟩, _, h⟩ := Outcome.bind_eq_ok.1 h
      simp only at h
      split at h
      · cases h
      · cases h
        exact funcsSound_decls ts hm
    · split at h
      · unfold decodeCodeSection at h
        obtain ⟨⟨n, p3⟩, _, h⟩ := Outcome.bind_eq_ok.1 h
        simp only at h
        split at h
        · cases h
        · obtain ⟨⟨fs, p4⟩, h4, h⟩ := Outcome.bind_eq_ok.1 h
          cases h
          obtain ⟨bl, hb1, hb2⟩ := hm
          refine ⟨bl ++ [fs], by simp [hb1], fun b hb j f hf => ?_⟩
          rcases List.mem_append.1 hb with hb | hb
          · exact hb2 b hb j f hf
          · simp only [List.mem_singleton] at hb
            subst hb
            have := decodeCodeEntries_sound h4 j f hf
            rwa [Nat.zero_add] at this
      · cases h

theorem compileLoop_sound {bs f m pos m'} (hm : FuncsSound bs m)
    (h : compileLoop bs f m pos = .ok m') : FuncsSound bs m' := by
  induction f generalizing m pos with
  | zero => cases h
  | succ f ih =>
    rw [compileLoop] at h
    split at h
    · cases h; exact hm
    · obtain ⟨⟨m1, p1⟩, h1, h2⟩ := Outcome.bind_eq_ok.1 h
      exact ih (decodeSection_sound hm h1) h2

/-! ### A declaration naming a missing type ends the process -/

theorem decodeCodeEntries_bad {bs pos} {cs : List CodeEntry} {m : Module} {i : Nat}
    (h : At bs pos (cs.map appendCode).flatten)
    (hsz : ∀ c ∈ cs, (appendVaruint32 c.nregs ++ c.body).length < 2 ^ 32)
    (hdecl : m.funcTypes.length = i + cs.length)
    (hbad : ∃ j, j < cs.length ∧ ∀ ti, m.funcTypes[i + j]? = some ti → m.types.length ≤ ti.toNat) :
    ∃ w, decodeCodeEntries bs m cs.length i pos = .trap w := by
  induction cs generalizing pos i with
  | nil => obtain ⟨j, hj, _⟩ := hbad; simp at hj
  | cons c cs ih =>
    rw [List.map_cons, List.flatten_cons] at h
    simp only [List.length_cons] at hdecl
    have hi : i < m.funcTypes.length := by omega
    have e1 : m.funcTypes[i]? = some m.funcTypes[i] := List.getElem?_eq_getElem hi
    rw [List.length_cons, decodeCodeEntries]
    by_cases ht : m.types.length ≤ m.funcTypes[i].toNat
    · have hc := h.left
      unfold appendCode at hc
      simp only at hc
      obtain ⟨v, hv, e⟩ := readVaru32_size_at hc.left (hsz c (by simp))
      have e2 := readVaru32_at hc.right.left
      unfold decodeCodeEntry
      rw [e]
      simp only [Outcome.ok_bind]
      rw [e2]
      simp only [Outcome.ok_bind]
      unfold reposition
      rw [hv, if_pos hc.right.le]
      simp only [Outcome.ok_bind]
      unfold Module.typeFor
      rw [e1]
      simp only
      rw [List.getElem?_eq_none ht]
      exact ⟨_, rfl⟩
    · obtain ⟨p, e, _⟩ := decodeCodeEntry_at (i := i) (m := m) h.left (hsz c (by simp)) e1
        (List.getElem?_eq_getElem (by omega))
      rw [e]
      simp only [Outcome.ok_bind]
      obtain ⟨w, e'⟩ := ih (i := i + 1) h.right (fun c hc => hsz c (by simp [hc])) (by omega) (by
        obtain ⟨j, hj, hb⟩ := hbad
        cases j with
        | zero => exact absurd (hb m.funcTypes[i] (by rw [Nat.add_zero]; exact e1)) (by omega)
        | succ j =>
          refine ⟨j, by simpa using hj, ?_⟩
          rwa [show i + 1 + j = i + (j + 1) by omega])
      rw [e']
      exact ⟨w, rfl⟩

/-- Common part of the round-trip and rejection theorems for written modules: after the type and
function sections the loop stands at the code section, with the types and declarations loaded. -/
theorem compile_write_prefix (wm : WModule) (hfit : Fits wm) :
    ∃ k, compile (writeModule wm) = compileLoop (writeModule wm) (k + 1) ⟨wm.types, wm.funcs, []⟩
        ((writeModule wm).length - (appendCodeSection wm.codes).length) ∧
      At (writeModule wm) ((writeModule wm).length - (appendCodeSection wm.codes).length)
        (appendCodeSection wm.codes) ∧ (appendCodeSection wm.codes).length ≤ (writeModule wm).length := by
  obtain ⟨hf1, hf2, hf3⟩ := hfit
  generalize hbs : writeModule wm = bs
  have hbs' : bs = header ++ appendTypeSection wm.types ++ appendFuncSection wm.funcs
      ++ appendCodeSection wm.codes := by
    rw [← hbs]; unfold writeModule; rw [leHeader]
  have hlen : bs.length = 8 + (appendTypeSection wm.types).length + (appendFuncSection wm.funcs).length
      + (appendCodeSection wm.codes).length := by
    rw [hbs']; simp only [List.length_append]; rfl
  have hall : At bs 0 (header ++ appendTypeSection wm.types ++ appendFuncSection wm.funcs
      ++ appendCodeSection wm.codes) := by
    have := At.whole bs
    rw [← hbs']; exact this
  have w3 := hall.right
  have w2 := hall.left.right
  have w1 := hall.left.left.right
  have w0 := hall.left.left.left
  rw [List.length_append, List.length_append, show header.length = 8 from rfl, Nat.zero_add] at w3
  rw [List.length_append, show header.length = 8 from rfl, Nat.zero_add] at w2
  rw [show header.length = 8 from rfl, Nat.zero_add] at w1
  have s1 : ∃ k, k ≤ 1 ∧ ∀ fuel, compileLoop bs (fuel + k) Module.empty 8
      = compileLoop bs fuel ⟨wm.types, [], []⟩ (8 + (appendTypeSection wm.types).length) := by
    by_cases hz : wm.types.length = 0
    · have hn : wm.types = [] := List.length_eq_zero_iff.1 hz
      refine ⟨0, by omega, fun fuel => ?_⟩
      rw [hn]; rfl
    · refine ⟨1, by omega, fun fuel => ?_⟩
      have := typeSection_step hz Module.empty w1 hf1
      rw [compileLoop_step this]
      · simp [Module.empty]
      · have hp : 1 ≤ (appendTypeSection wm.types).length := by
          unfold appendTypeSection appendSection; rw [if_neg hz]; simp
        omega
  have s2 : ∃ k, k ≤ 1 ∧ ∀ fuel, compileLoop bs (fuel + k) ⟨wm.types, [], []⟩ (8 + (appendTypeSection wm.types).length)
      = compileLoop bs fuel ⟨wm.types, wm.funcs, []⟩ (8 + (appendTypeSection wm.types).length + (appendFuncSection wm.funcs).length) := by
    by_cases hz : wm.funcs.length = 0
    · have hn : wm.funcs = [] := List.length_eq_zero_iff.1 hz
      refine ⟨0, by omega, fun fuel => ?_⟩
      rw [hn]; rfl
    · refine ⟨1, by omega, fun fuel => ?_⟩
      have := funcSection_step hz ⟨wm.types, [], []⟩ w2 hf2
      rw [compileLoop_step this]
      · simp
      · have hp : 1 ≤ (appendFuncSection wm.funcs).length := by
          unfold appendFuncSection appendSection; rw [if_neg hz]; simp
        omega
  obtain ⟨k1, hk1, e1⟩ := s1
  obtain ⟨k2, hk2, e2⟩ := s2
  have start : compile bs = compileLoop bs (bs.length + 1) Module.empty 8 := by
    unfold compile; rw [readHeader_at w0]; rfl
  rw [show bs.length - (appendCodeSection wm.codes).length
    = 8 + (appendTypeSection wm.types).length + (appendFuncSection wm.funcs).length by omega]
  refine ⟨bs.length - k1 - k2, ?_, w3, by omega⟩
  rw [start, show bs.length + 1 = (bs.length - k1 - k2 + 1 + k2) + k1 by omega, e1, e2]

theorem compile_bad_type (wm : WModule) (hcount : wm.funcs.length = wm.codes.length) (hfit : Fits wm)
    (hbad : ∃ ti ∈ wm.funcs, wm.types.length ≤ ti.toNat) :
    ∃ w, compile (writeModule wm) = .trap w := by
  obtain ⟨k, e, h, hle⟩ := compile_write_prefix wm hfit
  rw [e]
  generalize (writeModule wm) = bs at *
  obtain ⟨ti, hmem, hti⟩ := hbad
  obtain ⟨j, hj, hjt⟩ := List.getElem_of_mem hmem
  have hne : wm.codes.length ≠ 0 := by omega
  have hsz := hfit.2.2
  have hpos : 1 ≤ (appendCodeSection wm.codes).length := by
    unfold appendCodeSection appendSection; rw [if_neg hne]; simp
  rw [compileLoop, if_neg (by omega)]
  generalize bs.length - (appendCodeSection wm.codes).length = pos at *
  generalize wm.codes = cs at *
  have hlen : (appendCodeSection cs).length = 1 + ((varSize (varSize cs.length ++ (cs.map appendCode).flatten).length).length
      + ((varSize cs.length).length + (cs.map appendCode).flatten.length)) := by
    unfold appendCodeSection appendSection
    rw [if_neg hne]
    simp only [List.length_append, List.length_cons, List.length_nil]
    omega
  unfold appendCodeSection appendSection at h
  rw [if_neg hne] at h
  have hcode := h.left.left
  have hsize := h.left.right
  have hcont := h.right
  rw [decodeSection_head hcode (by decide) hsize, if_neg (by decide), if_neg (by decide), if_pos rfl]
  unfold decodeCodeSection
  have hcnt : cs.length ≤ (cs.map appendCode).flatten.length :=
    flatten_length_ge appendCode cs (fun t _ => by
      rw [appendCode_length]
      have := (appendVaruint32_length (BitVec.ofNat 32 (appendVaruint32 t.nregs ++ t.body).length)).1
      unfold varSize
      omega)
  have hpe : pos + [SEC_CODE].length
      + (varSize (varSize cs.length ++ (cs.map appendCode).flatten).length).length
      = pos + ([SEC_CODE] ++ varSize (varSize cs.length ++ (cs.map appendCode).flatten).length).length := by
    simp only [List.length_append]; omega
  rw [show pos + 1 + (appendVaruint32 (BitVec.ofNat 32 (varSize cs.length ++ (cs.map appendCode).flatten).length)).length
    = pos + ([SEC_CODE] ++ varSize (varSize cs.length ++ (cs.map appendCode).flatten).length).length from hpe]
  obtain ⟨v, hv, e⟩ := readVaru32_size_at hcont.left (by omega)
  rw [e]
  simp only [Outcome.ok_bind]
  rw [if_neg (by simp only [hv]; omega), hv]
  have hbig : ∀ t ∈ cs, (appendCode t).length ≤ (cs.map appendCode).flatten.length :=
    fun t ht => flatten_mem_length (List.mem_map_of_mem ht)
  obtain ⟨w, e2⟩ := decodeCodeEntries_bad (m := ⟨wm.types, wm.funcs, []⟩) (i := 0) hcont.right
    (fun c hc => by
      have := hbig c hc
      rw [appendCode_length] at this
      omega) (by simp only; omega) ⟨j, by omega, fun ti' h' => by
        simp only [Nat.zero_add] at h'
        rw [List.getElem?_eq_getElem hj, hjt] at h'
        cases h'
        exact hti⟩
  rw [e2]
  exact ⟨w, rfl⟩

end Ab
