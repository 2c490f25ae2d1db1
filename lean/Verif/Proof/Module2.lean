import Verif.Proof.Module
import Verif.Spec.Module

namespace Ab
open Spec

theorem At.occurs {bs p e} (h : At bs p e) : OccursAt bs p e := by
  refine ⟨h.le, ?_⟩
  obtain ⟨pre, suf, rfl, rfl⟩ := h
  simp

/-! ### Round trip, section by section -/

theorem decodeSection_head {bs pos code sz} {m : Module} (hc : At bs pos [code])
    (hle : ¬ SEC_LAST < code) (hs : At bs (pos + 1) (appendVaruint32 sz)) :
    decodeSection bs m pos =
      (if code = SEC_TYPE then decodeTypeSection bs m (pos + 1 + (appendVaruint32 sz).length) sz
      else if code = SEC_FUNC then decodeFuncSection bs m (pos + 1 + (appendVaruint32 sz).length) sz
      else if code = SEC_CODE then decodeCodeSection bs m (pos + 1 + (appendVaruint32 sz).length) sz
      else .trap "AB_ASSERT_UNREACHABLE: unhandled section") := by
  unfold decodeSection readSectionCode
  rw [readByte_at hc]
  simp only [Outcome.ok_bind]
  rw [if_neg hle]
  simp only [Outcome.ok_bind]
  rw [readVaru32_at hs]
  rfl

theorem flatten_mem_length {α : Type} {l : List (List α)} {x : List α} (h : x ∈ l) :
    x.length ≤ l.flatten.length := by
  induction l with
  | nil => cases h
  | cons y l ih =>
    rw [List.flatten_cons, List.length_append]
    rcases List.mem_cons.1 h with rfl | h
    · omega
    · have := ih h; omega

theorem flatten_length_ge {α β : Type} (f : α → List β) (l : List α) (hf : ∀ a ∈ l, 1 ≤ (f a).length) :
    l.length ≤ (l.map f).flatten.length := by
  induction l with
  | nil => simp
  | cons a l ih =>
    rw [List.map_cons, List.flatten_cons, List.length_append, List.length_cons]
    have := hf a (by simp)
    have := ih (fun b hb => hf b (by simp [hb]))
    omega

theorem appendType_length (t : FuncType) : (appendType t).length =
    1 + (varSize t.args.length).length + t.args.length + (varSize t.rets.length).length + t.rets.length := by
  unfold appendType
  simp only [List.length_append, List.length_singleton]

theorem appendCode_length (t : CodeEntry) : (appendCode t).length =
    (varSize (appendVaruint32 t.nregs ++ t.body).length).length + (appendVaruint32 t.nregs ++ t.body).length := by
  unfold appendCode
  simp only [List.length_append]

theorem typeSection_step {bs pos} {ts : List FuncType} (hne : ts.length ≠ 0) (m : Module)
    (h : At bs pos (appendTypeSection ts)) (hsz : (appendTypeSection ts).length < 2 ^ 32) :
    decodeSection bs m pos
      = .ok ({ m with types := m.types ++ ts }, pos + (appendTypeSection ts).length) := by
  have hlen : (appendTypeSection ts).length = 1 + ((varSize (varSize ts.length ++ (ts.map appendType).flatten).length).length
      + ((varSize ts.length).length + (ts.map appendType).flatten.length)) := by
    unfold appendTypeSection appendSection
    rw [if_neg hne]
    simp only [List.length_append, List.length_cons, List.length_nil]
    omega
  rw [hlen] at hsz ⊢
  unfold appendTypeSection appendSection at h
  rw [if_neg hne] at h
  have hcode := h.left.left
  have hsize := h.left.right
  have hcont := h.right
  simp only [List.length_singleton, List.length_append] at hsize hcont
  generalize hS : (varSize (varSize ts.length ++ (ts.map appendType).flatten).length).length = S at *
  have hS' : (appendVaruint32 (BitVec.ofNat 32 ((varSize ts.length).length + (ts.map appendType).flatten.length))).length = S := by
    rw [← hS]; simp [varSize]
  rw [decodeSection_head hcode (by decide) hsize, if_pos rfl, hS']
  unfold decodeTypeSection
  have hbig : ∀ t ∈ ts, (appendType t).length ≤ (ts.map appendType).flatten.length :=
    fun t ht => flatten_mem_length (List.mem_map_of_mem ht)
  have hw : ∀ t ∈ ts, t.args.length < 2 ^ 32 ∧ t.rets.length < 2 ^ 32 := by
    intro t ht
    have := hbig t ht
    rw [appendType_length] at this
    omega
  have hcnt : ts.length ≤ (ts.map appendType).flatten.length :=
    flatten_length_ge appendType ts (fun t _ => by rw [appendType_length]; omega)
  rw [← hS', Nat.add_assoc, hS']
  rw [show (varSize ((varSize ts.length).length + (ts.map appendType).flatten.length)).length = S from hS'] at hcont
  obtain ⟨v, hv, e⟩ := readVaru32_size_at hcont.left (by omega)
  rw [e]
  simp only [Outcome.ok_bind]
  rw [hv, readFuncTypes_at hcont.right hw]
  simp only [Outcome.ok_bind]
  rw [if_neg]
  · congr 2; omega
  · rw [BitVec.toNat_ofNat]
    simp only [Decidable.not_not]
    omega

theorem funcSection_step {bs pos} {fs : List U32} (hne : fs.length ≠ 0) (m : Module)
    (h : At bs pos (appendFuncSection fs)) (hsz : (appendFuncSection fs).length < 2 ^ 32) :
    decodeSection bs m pos
      = .ok ({ m with funcTypes := m.funcTypes ++ fs }, pos + (appendFuncSection fs).length) := by
  have hlen : (appendFuncSection fs).length = 1 + ((varSize (varSize fs.length ++ (fs.map appendVaruint32).flatten).length).length
      + ((varSize fs.length).length + (fs.map appendVaruint32).flatten.length)) := by
    unfold appendFuncSection appendSection
    rw [if_neg hne]
    simp only [List.length_append, List.length_cons, List.length_nil]
    omega
  rw [hlen] at hsz ⊢
  unfold appendFuncSection appendSection at h
  rw [if_neg hne] at h
  have hcode := h.left.left
  have hsize := h.left.right
  have hcont := h.right
  simp only [List.length_singleton, List.length_append] at hsize hcont
  generalize hS : (varSize (varSize fs.length ++ (fs.map appendVaruint32).flatten).length).length = S at *
  have hS' : (appendVaruint32 (BitVec.ofNat 32 ((varSize fs.length).length + (fs.map appendVaruint32).flatten.length))).length = S := by
    rw [← hS]; simp [varSize]
  rw [decodeSection_head hcode (by decide) hsize, if_neg (by decide), if_pos rfl, hS']
  unfold decodeFuncSection
  have hcnt : fs.length ≤ (fs.map appendVaruint32).flatten.length :=
    flatten_length_ge appendVaruint32 fs (fun t _ => (appendVaruint32_length t).1)
  rw [← hS', Nat.add_assoc, hS']
  rw [show (varSize ((varSize fs.length).length + (fs.map appendVaruint32).flatten.length)).length = S from hS'] at hcont
  obtain ⟨v, hv, e⟩ := readVaru32_size_at hcont.left (by omega)
  rw [e]
  simp only [Outcome.ok_bind]
  rw [hv, readFuncDecls_at hcont.right]
  simp only [Outcome.ok_bind]
  rw [if_neg]
  · congr 2; omega
  · rw [BitVec.toNat_ofNat]
    simp only [Decidable.not_not]
    omega

theorem codeSection_step {bs pos} {cs : List CodeEntry} (hne : cs.length ≠ 0) (m : Module)
    (h : At bs pos (appendCodeSection cs)) (hsz : (appendCodeSection cs).length < 2 ^ 32)
    (hcount : m.funcTypes.length = cs.length)
    (hty : ∀ ti ∈ m.funcTypes, ti.toNat < m.types.length) :
    ∃ fs, decodeSection bs m pos
        = .ok ({ m with funcs := m.funcs ++ fs }, pos + (appendCodeSection cs).length)
      ∧ fs.length = cs.length
      ∧ ∃ base, ∀ (j : Nat) (c : CodeEntry) (f : Func), cs[j]? = some c → fs[j]? = some f →
          ∃ (ti : U32) (t : FuncType), m.funcTypes[j]? = some ti ∧ m.types[ti.toNat]? = some t ∧
            f = Func.make ti.toNat m.types.length t f.body c.nregs ∧ At bs f.body c.body ∧
            f.body + c.body.length = base + ((cs.take (j + 1)).map appendCode).flatten.length := by
  have hlen : (appendCodeSection cs).length = 1 + ((varSize (varSize cs.length ++ (cs.map appendCode).flatten).length).length
      + ((varSize cs.length).length + (cs.map appendCode).flatten.length)) := by
    unfold appendCodeSection appendSection
    rw [if_neg hne]
    simp only [List.length_append, List.length_cons, List.length_nil]
    omega
  rw [hlen] at hsz ⊢
  unfold appendCodeSection appendSection at h
  rw [if_neg hne] at h
  have hcode := h.left.left
  have hsize := h.left.right
  have hcont := h.right
  simp only [List.length_singleton, List.length_append] at hsize hcont
  generalize hS : (varSize (varSize cs.length ++ (cs.map appendCode).flatten).length).length = S at *
  have hS' : (appendVaruint32 (BitVec.ofNat 32 ((varSize cs.length).length + (cs.map appendCode).flatten.length))).length = S := by
    rw [← hS]; simp [varSize]
  rw [decodeSection_head hcode (by decide) hsize, if_neg (by decide), if_neg (by decide), if_pos rfl, hS']
  unfold decodeCodeSection
  have hcnt : cs.length ≤ (cs.map appendCode).flatten.length :=
    flatten_length_ge appendCode cs (fun t _ => by
      unfold appendCode
      rw [List.length_append]
      have := (appendVaruint32_length (BitVec.ofNat 32 (appendVaruint32 t.nregs ++ t.body).length)).1
      unfold varSize
      omega)
  rw [← hS', Nat.add_assoc, hS']
  rw [show (varSize ((varSize cs.length).length + (cs.map appendCode).flatten.length)).length = S from hS'] at hcont
  obtain ⟨v, hv, e⟩ := readVaru32_size_at hcont.left (by omega)
  have hbig : ∀ t ∈ cs, (appendCode t).length ≤ (cs.map appendCode).flatten.length :=
    fun t ht => flatten_mem_length (List.mem_map_of_mem ht)
  obtain ⟨fs, e2, hl, hf⟩ := decodeCodeEntries_at (m := m) (i := 0) hcont.right
    (fun c hc => by
      have := hbig c hc
      rw [appendCode_length] at this
      omega)
    (fun j hj => by
      have hj' : j < m.funcTypes.length := by omega
      have h1 : m.funcTypes[0 + j]? = some m.funcTypes[j] := by
        rw [Nat.zero_add, List.getElem?_eq_getElem hj']
      have h2 := hty _ (List.getElem_mem hj')
      exact ⟨_, _, h1, List.getElem?_eq_getElem h2⟩)
  simp only [Nat.zero_add] at hf
  refine ⟨fs, ?_, hl, _, hf⟩
  · rw [e]
    simp only [Outcome.ok_bind]
    rw [if_neg (by omega), hv, e2]
    simp only [Outcome.ok_bind]
    congr 2; omega

/-- Running the section loop over a section that may be absent. -/
theorem compileLoop_step {bs : List Byte} {fuel : Nat} {m m' : Module} {pos pos' : Nat}
    (h : decodeSection bs m pos = .ok (m', pos')) (hlt : pos < bs.length) :
    compileLoop bs (fuel + 1) m pos = compileLoop bs fuel m' pos' := by
  rw [compileLoop, if_neg (by omega), h]
  rfl

theorem compileLoop_end {bs : List Byte} {fuel : Nat} {m : Module} {pos : Nat}
    (h : pos = bs.length) : compileLoop bs (fuel + 1) m pos = .ok m := by
  rw [compileLoop, if_pos h]

theorem leHeader : leU32 MODULE_MAGIC ++ leU32 MODULE_VERSION = header := by decide

theorem readHeader_at {bs : List Byte} (h : At bs 0 header) : readHeader bs = .ok 8 := by
  rw [← leHeader] at h
  unfold readHeader
  rw [readU32_at h.left]
  simp only [Outcome.ok_bind, ne_eq, not_true_eq_false, if_false]
  have := h.right
  simp only [leU32, List.length_cons, List.length_nil] at this
  rw [readU32_at this]
  simp

theorem compile_write (wm : WModule) (hwf : WellFormed wm) (hfit : Fits wm) :
    ∃ lm, compile (writeModule wm) = .ok lm ∧ Loaded wm (writeModule wm) lm := by
  obtain ⟨hcount, hty⟩ := hwf
  obtain ⟨hf1, hf2, hf3⟩ := hfit
  generalize hbs : writeModule wm = bs
  have hbs' : bs = header ++ appendTypeSection wm.types ++ appendFuncSection wm.funcs
      ++ appendCodeSection wm.codes := by
    rw [← hbs]; unfold writeModule; rw [leHeader]
  have hlen : bs.length = 8 + (appendTypeSection wm.types).length + (appendFuncSection wm.funcs).length
      + (appendCodeSection wm.codes).length := by
    rw [hbs']; simp only [List.length_append]; rfl
  have hall : At bs 0 (header ++ appendTypeSection wm.types ++ appendFuncSection wm.funcs
      ++ appendCodeSection wm.codes) := by
    have := At.whole bs
    rw [← hbs']; exact this
  have w3 := hall.right
  have w2 := hall.left.right
  have w1 := hall.left.left.right
  have w0 := hall.left.left.left
  rw [List.length_append, List.length_append, show header.length = 8 from rfl, Nat.zero_add] at w3
  rw [List.length_append, show header.length = 8 from rfl, Nat.zero_add] at w2
  rw [show header.length = 8 from rfl, Nat.zero_add] at w1
  -- section 1
  have s1 : ∃ k, k ≤ 1 ∧ ∀ fuel, compileLoop bs (fuel + k) Module.empty 8
      = compileLoop bs fuel ⟨wm.types, [], []⟩ (8 + (appendTypeSection wm.types).length) := by
    by_cases hz : wm.types.length = 0
    · have hn : wm.types = [] := List.length_eq_zero_iff.1 hz
      refine ⟨0, by omega, fun fuel => ?_⟩
      rw [hn]; rfl
    · refine ⟨1, by omega, fun fuel => ?_⟩
      have := typeSection_step hz Module.empty w1 hf1
      rw [compileLoop_step this]
      · simp [Module.empty]
      · have hp : 1 ≤ (appendTypeSection wm.types).length := by
          unfold appendTypeSection appendSection; rw [if_neg hz]; simp
        omega
  have s2 : ∃ k, k ≤ 1 ∧ ∀ fuel, compileLoop bs (fuel + k) ⟨wm.types, [], []⟩ (8 + (appendTypeSection wm.types).length)
      = compileLoop bs fuel ⟨wm.types, wm.funcs, []⟩ (8 + (appendTypeSection wm.types).length + (appendFuncSection wm.funcs).length) := by
    by_cases hz : wm.funcs.length = 0
    · have hn : wm.funcs = [] := List.length_eq_zero_iff.1 hz
      refine ⟨0, by omega, fun fuel => ?_⟩
      rw [hn]; rfl
    · refine ⟨1, by omega, fun fuel => ?_⟩
      have := funcSection_step hz ⟨wm.types, [], []⟩ w2 hf2
      rw [compileLoop_step this]
      · simp
      · have hp : 1 ≤ (appendFuncSection wm.funcs).length := by
          unfold appendFuncSection appendSection; rw [if_neg hz]; simp
        omega
  obtain ⟨k1, hk1, e1⟩ := s1
  obtain ⟨k2, hk2, e2⟩ := s2
  have start : compile bs = compileLoop bs (bs.length + 1) Module.empty 8 := by
    unfold compile; rw [readHeader_at w0]; rfl
  have e12 : compile bs = compileLoop bs (bs.length + 1 - k1 - k2) ⟨wm.types, wm.funcs, []⟩
      (8 + (appendTypeSection wm.types).length + (appendFuncSection wm.funcs).length) := by
    rw [start, show bs.length + 1 = (bs.length + 1 - k1 - k2 + k2) + k1 by omega, e1, e2]
    congr 1; omega
  by_cases hz : wm.codes.length = 0
  · have hn : wm.codes = [] := List.length_eq_zero_iff.1 hz
    refine ⟨⟨wm.types, wm.funcs, []⟩, ?_, ⟨rfl, rfl, by simp [hn], ?_, ?_⟩⟩
    · rw [e12, show bs.length + 1 - k1 - k2 = (bs.length - k1 - k2) + 1 by omega, compileLoop_end]
      rw [hlen, hn]; rfl
    · intro i c f ti t hc; rw [hn] at hc; simp at hc
    · intro i j f g c hij hc; rw [hn] at hc; simp at hc
  · obtain ⟨fs, e3, hl, base, hf⟩ := codeSection_step hz ⟨wm.types, wm.funcs, []⟩ w3 hf3 hcount hty
    refine ⟨⟨wm.types, wm.funcs, fs⟩, ?_, ⟨rfl, rfl, hl, ?_, ?_⟩⟩
    · rw [e12, show bs.length + 1 - k1 - k2 = (bs.length - 1 - k1 - k2 + 1) + 1 by omega,
        compileLoop_step e3, compileLoop_end]
      · simp
      · rw [hlen]
      · have hp : 1 ≤ (appendCodeSection wm.codes).length := by
          unfold appendCodeSection appendSection; rw [if_neg hz]; simp
        omega
    · intro i c f ti t hc hff hti ht
      obtain ⟨ti', t', h1, h2, h3, h4, _⟩ := hf i c f hc hff
      simp only at h1 h2 h3
      rw [hti] at h1
      cases h1
      rw [ht] at h2
      cases h2
      rw [h3]
      refine ⟨rfl, rfl, rfl, rfl, rfl, rfl, ?_⟩
      exact h4.occurs
    · intro i j f g c hij hc hf1' hg1'
      simp only at hf1' hg1'
      obtain ⟨_, _, _, _, _, _, q1⟩ := hf i c f hc hf1'
      have hj : j < wm.codes.length := by
        rw [← hl]
        exact (List.getElem?_eq_some_iff.1 hg1').1
      obtain ⟨_, _, _, _, _, _, q2⟩ := hf j wm.codes[j] g (List.getElem?_eq_getElem hj) hg1'
      have hsplit : wm.codes.take (j + 1) = wm.codes.take (i + 1) ++ ((wm.codes.drop (i + 1)).take (j - i - 1) ++ [wm.codes[j]]) := by
        rw [← List.append_assoc, ← List.take_add, show i + 1 + (j - i - 1) = j by omega,
          List.take_succ_eq_append_getElem hj]
      rw [hsplit, List.map_append, List.flatten_append, List.length_append, List.map_append,
        List.flatten_append, List.length_append] at q2
      simp only [List.map_cons, List.map_nil, List.flatten_cons, List.flatten_nil, List.append_nil,
        appendCode_length, List.length_append] at q2
      omega

end Ab
