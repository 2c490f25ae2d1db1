import Verif.Proof.VarInt
import Verif.Model.Module

/-! Reading back bytes found at a position. -/

namespace Ab
open Spec

/-- The bytes `enc` are found in `bs` at offset `pos`. -/
def At (bs : List Byte) (pos : Nat) (enc : List Byte) : Prop :=
  ∃ pre suf, bs = pre ++ enc ++ suf ∧ pre.length = pos

theorem At.left {bs pos e1 e2} (h : At bs pos (e1 ++ e2)) : At bs pos e1 := by
  obtain ⟨pre, suf, rfl, hp⟩ := h
  exact ⟨pre, e2 ++ suf, by simp, hp⟩

theorem At.right {bs pos e1 e2} (h : At bs pos (e1 ++ e2)) : At bs (pos + e1.length) e2 := by
  obtain ⟨pre, suf, rfl, hp⟩ := h
  exact ⟨pre ++ e1, suf, by simp, by simp [hp]⟩

theorem At.le {bs pos e} (h : At bs pos e) : pos + e.length ≤ bs.length := by
  obtain ⟨pre, suf, rfl, hp⟩ := h
  simp only [List.length_append]; omega

theorem At.getElem? {bs pos e} (h : At bs pos e) (i : Nat) (hi : i < e.length) :
    bs[pos + i]? = e[i]? := by
  obtain ⟨pre, suf, rfl, hp⟩ := h
  subst hp
  rw [List.append_assoc, List.getElem?_append_right (by omega), Nat.add_sub_cancel_left,
    List.getElem?_append_left hi]

theorem At.whole (bs : List Byte) : At bs 0 bs := ⟨[], [], by simp, rfl⟩

theorem readByte_at {bs pos b} (h : At bs pos [b]) : readByte bs pos = .ok (b, pos + 1) := by
  obtain ⟨pre, suf, rfl, rfl⟩ := h
  have := readByte_append pre b suf
  simpa using this

theorem readByte_at_cons {bs pos b t} (h : At bs pos (b :: t)) :
    readByte bs pos = .ok (b, pos + 1) :=
  readByte_at (At.left (e1 := [b]) (e2 := t) h)

theorem At.tail {bs pos b t} (h : At bs pos (b :: t)) : At bs (pos + 1) t :=
  At.right (e1 := [b]) (e2 := t) h

theorem readVaru32_at {bs pos v} (h : At bs pos (appendVaruint32 v)) :
    readVaru32 bs pos = .ok (v, pos + (appendVaruint32 v).length) := by
  obtain ⟨pre, suf, rfl, rfl⟩ := h
  obtain ⟨h1, h2, h3⟩ := appendVaruint_spec v
  have hlen : (appendVaruint v).length ≤ 5 := by
    rw [h3]; exact digits128_le _ 4 (by have := v.isLt; omega)
  have := readVaru_leb 32 32 (appendVaruint v) h1 pre suf (by omega)
  unfold readVaru32 appendVaruint32
  rw [this, h2, BitVec.ofNat_toNat, BitVec.setWidth_eq]

theorem readVaru32_size_at {bs pos n} (h : At bs pos (varSize n)) (hn : n < 2 ^ 32) :
    ∃ v, v.toNat = n ∧ readVaru32 bs pos = .ok (v, pos + (varSize n).length) :=
  ⟨BitVec.ofNat 32 n, by simp; omega, readVaru32_at h⟩

theorem appendVaruint32_length (v : U32) :
    1 ≤ (appendVaruint32 v).length ∧ (appendVaruint32 v).length ≤ 5 := by
  obtain ⟨_, _, h3⟩ := appendVaruint_spec v
  unfold appendVaruint32
  rw [h3]
  exact ⟨digits128_pos _, digits128_le _ 4 (by have := v.isLt; omega)⟩

theorem readValTypes_at {bs pos ts} (h : At bs pos ts) :
    readValTypes bs ts.length pos = .ok (ts, pos + ts.length) := by
  induction ts generalizing pos with
  | nil => rfl
  | cons t ts ih =>
    rw [List.length_cons, readValTypes, readByte_at_cons h]
    simp only [Outcome.ok_bind]
    rw [ih h.tail]
    simp only [Outcome.ok_bind]
    congr 2
    omega

theorem readFuncType_at {bs pos t} (h : At bs pos (appendType t))
    (ha : t.args.length < 2 ^ 32) (hr : t.rets.length < 2 ^ 32) :
    readFuncType bs pos = .ok (t, pos + (appendType t).length) := by
  have h0 := h
  unfold appendType at h
  have hrets := h.right
  have hnr := h.left.right
  have hargs := h.left.left.right
  have hna := h.left.left.left.right
  have hf := h.left.left.left.left
  obtain ⟨va, hva, e1⟩ := readVaru32_size_at hna ha
  obtain ⟨vr, hvr, e2⟩ := readVaru32_size_at hnr hr
  unfold readFuncType
  rw [readByte_at hf]
  simp only [Outcome.ok_bind, ne_eq, not_true_eq_false, if_false]
  simp only [List.length_singleton, List.length_append] at e1 e2 hargs hrets
  rw [e1]
  simp only [Outcome.ok_bind]
  rw [hva, Nat.add_assoc, readValTypes_at hargs]
  simp only [Outcome.ok_bind]
  simp only [Nat.add_assoc] at e2 hrets ⊢
  rw [e2]
  simp only [Outcome.ok_bind]
  rw [hvr, readValTypes_at hrets]
  simp only [Outcome.ok_bind]
  unfold appendType
  simp only [List.length_append, List.length_singleton, Nat.add_assoc]

theorem readFuncTypes_at {bs pos} {ts : List FuncType} (h : At bs pos (ts.map appendType).flatten)
    (hw : ∀ t ∈ ts, t.args.length < 2 ^ 32 ∧ t.rets.length < 2 ^ 32) :
    readFuncTypes bs ts.length pos = .ok (ts, pos + (ts.map appendType).flatten.length) := by
  induction ts generalizing pos with
  | nil => rfl
  | cons t ts ih =>
    rw [List.map_cons, List.flatten_cons] at h
    rw [List.length_cons, readFuncTypes,
      readFuncType_at h.left (hw t (by simp)).1 (hw t (by simp)).2]
    simp only [Outcome.ok_bind]
    rw [ih h.right (fun t ht => hw t (by simp [ht]))]
    simp only [Outcome.ok_bind, List.map_cons, List.flatten_cons, List.length_append,
      Nat.add_assoc]

theorem readFuncDecls_at {bs pos} {fs : List U32} (h : At bs pos (fs.map appendVaruint32).flatten) :
    readFuncDecls bs fs.length pos = .ok (fs, pos + (fs.map appendVaruint32).flatten.length) := by
  induction fs generalizing pos with
  | nil => rfl
  | cons t ts ih =>
    rw [List.map_cons, List.flatten_cons] at h
    rw [List.length_cons, readFuncDecls, readVaru32_at h.left]
    simp only [Outcome.ok_bind]
    rw [ih h.right]
    simp only [Outcome.ok_bind, List.map_cons, List.flatten_cons, List.length_append,
      Nat.add_assoc]

theorem typeFor_ok {m : Module} {i : Nat} {ti : U32} {t : FuncType}
    (h1 : m.funcTypes[i]? = some ti) (h2 : m.types[ti.toNat]? = some t) :
    m.typeFor i = .ok (ti.toNat, t) := by
  unfold Module.typeFor
  rw [h1]
  simp only
  rw [h2]

theorem decodeCodeEntry_at {bs pos c m i ti t} (h : At bs pos (appendCode c))
    (hsz : (appendVaruint32 c.nregs ++ c.body).length < 2 ^ 32)
    (h1 : m.funcTypes[i]? = some ti) (h2 : m.types[ti.toNat]? = some t) :
    ∃ p, decodeCodeEntry bs m i pos
        = .ok (Func.make ti.toNat m.types.length t p c.nregs, pos + (appendCode c).length)
      ∧ At bs p c.body ∧ p + c.body.length = pos + (appendCode c).length := by
  unfold appendCode at h
  simp only at h
  obtain ⟨v, hv, e⟩ := readVaru32_size_at h.left hsz
  have e2 := readVaru32_at h.right.left
  refine ⟨_, ?_, h.right.right, by unfold appendCode; simp only [List.length_append]; omega⟩
  unfold decodeCodeEntry
  rw [e]
  simp only [Outcome.ok_bind]
  rw [e2]
  simp only [Outcome.ok_bind]
  have hle := h.right.le
  unfold reposition
  rw [hv, if_pos hle]
  simp only [Outcome.ok_bind]
  rw [typeFor_ok h1 h2]
  simp only [Outcome.ok_bind, appendCode, List.length_append, Nat.add_assoc]

theorem decodeCodeEntries_at {bs pos} {cs : List CodeEntry} {m : Module} {i : Nat}
    (h : At bs pos (cs.map appendCode).flatten)
    (hsz : ∀ c ∈ cs, (appendVaruint32 c.nregs ++ c.body).length < 2 ^ 32)
    (hty : ∀ j, j < cs.length → ∃ ti t, m.funcTypes[i + j]? = some ti ∧ m.types[ti.toNat]? = some t) :
    ∃ fs, decodeCodeEntries bs m cs.length i pos
        = .ok (fs, pos + (cs.map appendCode).flatten.length)
      ∧ fs.length = cs.length
      ∧ ∀ j c f, cs[j]? = some c → fs[j]? = some f →
          ∃ ti t, m.funcTypes[i + j]? = some ti ∧ m.types[ti.toNat]? = some t ∧
            f = Func.make ti.toNat m.types.length t f.body c.nregs ∧ At bs f.body c.body ∧
            f.body + c.body.length = pos + ((cs.take (j + 1)).map appendCode).flatten.length := by
  induction cs generalizing pos i with
  | nil => exact ⟨[], rfl, rfl, by simp⟩
  | cons c cs ih =>
    rw [List.map_cons, List.flatten_cons] at h
    obtain ⟨ti, t, h1, h2⟩ := hty 0 (by simp)
    obtain ⟨p, e, hp, hq⟩ := decodeCodeEntry_at (i := i) (m := m) h.left (hsz c (by simp)) h1 h2
    obtain ⟨fs, e', hl, hf⟩ := ih (i := i + 1) h.right (fun c hc => hsz c (by simp [hc]))
      (fun j hj => by
        have := hty (j + 1) (by simp; omega)
        rwa [show i + (j + 1) = i + 1 + j by omega] at this)
    refine ⟨Func.make ti.toNat m.types.length t p c.nregs :: fs, ?_, by simp [hl], ?_⟩
    · rw [List.length_cons, decodeCodeEntries, e]
      simp only [Outcome.ok_bind]
      rw [e']
      simp only [Outcome.ok_bind, List.map_cons, List.flatten_cons, List.length_append, Nat.add_assoc]
    · intro j c' f hc' hf'
      cases j with
      | zero =>
        simp only [List.getElem?_cons_zero, Option.some.injEq] at hc' hf'
        subst hc' hf'
        refine ⟨ti, t, h1, h2, rfl, hp, ?_⟩
        simp only [Func.make, Nat.zero_add, List.take_succ_cons, List.take_zero, List.map_cons, List.map_nil,
          List.flatten_cons, List.flatten_nil, List.append_nil]
        exact hq
      | succ j =>
        simp only [List.getElem?_cons_succ] at hc' hf'
        have := hf j c' f hc' hf'
        rw [show i + 1 + j = i + (j + 1) by omega] at this
        obtain ⟨ti, t, a1, a2, a3, a4, a5⟩ := this
        refine ⟨ti, t, a1, a2, a3, a4, ?_⟩
        rw [List.take_succ_cons, List.map_cons, List.flatten_cons, List.length_append, a5]
        omega

theorem readU32_at {bs pos v} (h : At bs pos (leU32 v)) : readU32 bs pos = .ok (v, pos + 4) := by
  unfold readU32
  have hle := h.le
  simp only [leU32, List.length_cons, List.length_nil] at hle
  rw [if_neg (by omega)]
  have g0 := h.getElem? 0 (by simp [leU32])
  have g1 := h.getElem? 1 (by simp [leU32])
  have g2 := h.getElem? 2 (by simp [leU32])
  have g3 := h.getElem? 3 (by simp [leU32])
  simp only [leU32, Nat.add_zero, List.getElem?_cons_zero, List.getElem?_cons_succ] at g0 g1 g2 g3
  rw [g0, g1, g2, g3]
  simp only
  congr 2
  apply BitVec.eq_of_getElem_eq
  intro i hi
  simp only [BitVec.getElem_append, BitVec.getElem_extractLsb']
  split <;> (try split) <;> (try split) <;>
    simp only [← BitVec.getLsbD_eq_getElem] <;> congr 1 <;> omega

end Ab
