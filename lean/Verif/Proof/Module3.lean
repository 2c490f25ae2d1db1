import Verif.Proof.Module2
import Verif.Props.VarInt

namespace Ab
open Spec

/-! ### Section decomposition -/

theorem readByte_ok {bs : List Byte} {pos b p} (h : readByte bs pos = .ok (b, p)) :
    p = pos + 1 ∧ bs.drop pos = b :: bs.drop (pos + 1) := by
  rcases readByte_safe' bs pos with ⟨hl, b', e⟩ | ⟨_, e⟩
  · have e2 := readByte_lt hl
    rw [h] at e2
    injection e2 with e2
    injection e2 with e3 e4
    exact ⟨e4, by rw [e3, List.drop_eq_getElem_cons hl]⟩
  · rw [e] at h; cases h

theorem readVaru32_ok {bs : List Byte} {pos v p} (hp : pos ≤ bs.length)
    (h : readVaru32 bs pos = .ok (v, p)) :
    ∃ enc, IsLeb enc ∧ enc.length ≤ 5 ∧ v = BitVec.ofNat 32 (lebValue enc) ∧ p = pos + enc.length ∧
      bs.drop pos = enc ++ bs.drop p := by
  rcases C03_read_varu32 bs pos hp with ⟨enc, suf, h1, h2, h3, h4⟩ | ⟨_, w, h4⟩
  · rw [h] at h4
    injection h4 with h4
    injection h4 with h5 h6
    refine ⟨enc, h1, h2, h5, h6, ?_⟩
    rw [h6, ← List.drop_drop, h3]
    simp
  · rw [h] at h4; cases h4

/-- The section codes the loader understands. -/
def goodSection (s : Byte × List Byte × List Byte) : Prop :=
  IsLeb s.2.1 ∧ (s.1 = SEC_TYPE ∨ s.1 = SEC_FUNC ∨ s.1 = SEC_CODE) ∧
    (s.1 ≠ SEC_CODE → s.2.2.length = lebValue s.2.1 % 2 ^ 32)

theorem decodeTypeSection_len {bs m pos size r p} (h : decodeTypeSection bs m pos size = .ok (r, p)) :
    p - pos = size.toNat := by
  unfold decodeTypeSection at h
  obtain ⟨⟨n, p1⟩, _, h⟩ := Outcome.bind_eq_ok.1 h
  obtain ⟨⟨ts, p2⟩, _, h⟩ := Outcome.bind_eq_ok.1 h
  simp only at h
  split at h
  · cases h
  · rename_i hc
    cases h
    exact Decidable.not_not.1 hc

theorem decodeFuncSection_len {bs m pos size r p} (h : decodeFuncSection bs m pos size = .ok (r, p)) :
    p - pos = size.toNat := by
  unfold decodeFuncSection at h
  obtain ⟨⟨n, p1⟩, _, h⟩ := Outcome.bind_eq_ok.1 h
  obtain ⟨⟨ts, p2⟩, _, h⟩ := Outcome.bind_eq_ok.1 h
  simp only at h
  split at h
  · cases h
  · rename_i hc
    cases h
    exact Decidable.not_not.1 hc

theorem decodeSection_ok {bs m pos m' p} (h : decodeSection bs m pos = .ok (m', p)) :
    ∃ s, goodSection s ∧ bs.drop pos = s.1 :: (s.2.1 ++ s.2.2) ++ bs.drop p ∧ pos < p ∧ p ≤ bs.length := by
  have hs := decodeSection_safe bs m pos
  rw [h] at hs
  unfold decodeSection at h
  obtain ⟨⟨code, p1⟩, h1, h⟩ := Outcome.bind_eq_ok.1 h
  obtain ⟨⟨size, p2⟩, h2, h⟩ := Outcome.bind_eq_ok.1 h
  unfold readSectionCode at h1
  obtain ⟨⟨codeX, p1'⟩, hb, h1⟩ := Outcome.bind_eq_ok.1 h1
  simp only at h1
  split at h1
  · cases h1
  cases h1
  obtain ⟨rfl, hd⟩ := readByte_ok hb
  have hlt : pos < bs.length := by
    rcases readByte_safe' bs pos with ⟨hl, _⟩ | ⟨_, e⟩
    · exact hl
    · rw [e] at hb; cases hb
  obtain ⟨enc, he, _, hv, rfl, hd2⟩ := readVaru32_ok (by omega) h2
  simp only at h
  have key : Safe bs (pos + 1 + enc.length) (Outcome.ok (m', p)) →
      (code = SEC_TYPE ∨ code = SEC_FUNC ∨ code = SEC_CODE) →
      (code ≠ SEC_CODE → p - (pos + 1 + enc.length) = size.toNat) →
      ∃ s, goodSection s ∧ bs.drop pos = s.1 :: (s.2.1 ++ s.2.2) ++ bs.drop p ∧ pos < p ∧ p ≤ bs.length := by
    intro hsafe hc hlen
    have hle1 : pos + 1 + enc.length ≤ p := hsafe.1
    have hle2 : p ≤ bs.length := hsafe.2
    refine ⟨(code, enc, (bs.drop (pos + 1 + enc.length)).take (p - (pos + 1 + enc.length))), ⟨he, hc, ?_⟩, ?_, by omega, hle2⟩
    · intro hne
      simp only [List.length_take, List.length_drop]
      have := hlen hne
      rw [hv, BitVec.toNat_ofNat] at this
      omega
    · simp only
      rw [hd, hd2, List.cons_append, List.append_assoc]
      have e3 := List.take_append_drop (p - (pos + 1 + enc.length)) (bs.drop (pos + 1 + enc.length))
      rw [List.drop_drop, show pos + 1 + enc.length + (p - (pos + 1 + enc.length)) = p by omega] at e3
      rw [e3]
  split at h
  · have := decodeTypeSection_safe bs m (pos + 1 + enc.length) size
    rw [h] at this
    exact key this (Or.inl ‹_›) (fun _ => decodeTypeSection_len h)
  · split at h
    · have := decodeFuncSection_safe bs m (pos + 1 + enc.length) size
      rw [h] at this
      exact key this (Or.inr (Or.inl ‹_›)) (fun _ => decodeFuncSection_len h)
    · split at h
      · have := decodeCodeSection_safe bs m (pos + 1 + enc.length) size
        rw [h] at this
        exact key this (Or.inr (Or.inr ‹_›)) (fun hne => absurd ‹_› hne)
      · cases h

theorem readByte_not_trap (bs pos w) : readByte bs pos ≠ .trap w := by
  rcases readByte_safe' bs pos with ⟨_, b, e⟩ | ⟨_, e⟩ <;> rw [e] <;> simp

theorem readVaru32_not_trap (bs : List Byte) (pos : Nat) (w) : readVaru32 bs pos ≠ .trap w := by
  unfold readVaru32 readVaru
  have key : ∀ (k pos shift : Nat) (r : BitVec 32), 32 - shift = k → readVaruLoop 32 32 bs pos shift r ≠ .trap w := by
    intro k
    induction k using Nat.strongRecOn with
    | _ k ih =>
      intro pos shift r hk
      rw [readVaruLoop]
      split
      · simp
      · rcases readByte_safe' bs pos with ⟨_, b, e⟩ | ⟨_, e⟩ <;> rw [e]
        · simp only
          split
          · exact ih (32 - (shift + 7)) (by omega) _ _ _ rfl
          · simp
        · simp
  exact key _ pos 0 _ rfl

theorem bind_not_trap {α β : Type} {x : Outcome α} {f : α → Outcome β} {w : String}
    (h1 : x ≠ .trap w) (h2 : ∀ a, x = .ok a → f a ≠ .trap w) : (x >>= f) ≠ .trap w := by
  cases x with
  | ok a => exact h2 a rfl
  | trap v => intro h; apply h1; simpa using h
  | _ => simp

theorem readValTypes_not_trap (bs n pos w) : readValTypes bs n pos ≠ .trap w := by
  induction n generalizing pos with
  | zero => simp [readValTypes]
  | succ n ih =>
    exact bind_not_trap (readByte_not_trap _ _ _) (fun a _ => bind_not_trap (ih _) (fun _ _ => by simp))

theorem readFuncType_not_trap (bs pos w) : readFuncType bs pos ≠ .trap w := by
  refine bind_not_trap (readByte_not_trap _ _ _) (fun a _ => ?_)
  obtain ⟨vt, p⟩ := a
  simp only
  split
  · simp
  · exact bind_not_trap (readVaru32_not_trap _ _ _) (fun a _ => bind_not_trap (readValTypes_not_trap _ _ _ _)
      (fun _ _ => bind_not_trap (readVaru32_not_trap _ _ _) (fun a _ => bind_not_trap (readValTypes_not_trap _ _ _ _)
      (fun _ _ => by simp))))

theorem readFuncTypes_not_trap (bs n pos w) : readFuncTypes bs n pos ≠ .trap w := by
  induction n generalizing pos with
  | zero => simp [readFuncTypes]
  | succ n ih =>
    exact bind_not_trap (readFuncType_not_trap _ _ _) (fun a _ => bind_not_trap (ih _) (fun _ _ => by simp))

theorem readFuncDecls_not_trap (bs n pos w) : readFuncDecls bs n pos ≠ .trap w := by
  induction n generalizing pos with
  | zero => simp [readFuncDecls]
  | succ n ih =>
    exact bind_not_trap (readVaru32_not_trap _ _ _) (fun a _ => bind_not_trap (ih _) (fun _ _ => by simp))

theorem decodeSection_trap {bs m pos w} (h : decodeSection bs m pos = .trap w) :
    ∃ c t, bs.drop pos = c :: t ∧ c.toNat ≤ 11 ∧ c ≠ SEC_TYPE ∧ c ≠ SEC_FUNC := by
  unfold decodeSection at h
  unfold readSectionCode at h
  rcases readByte_safe' bs pos with ⟨hl, b, e⟩ | ⟨_, e⟩
  rotate_left
  · rw [e] at h; cases h
  rw [e] at h
  simp only [Outcome.ok_bind] at h
  obtain ⟨_, hd⟩ := readByte_ok e
  split at h
  · cases h
  rename_i hb
  refine ⟨b, _, hd, ?_, ?_, ?_⟩
  · have := BitVec.not_lt.1 hb
    simpa [SEC_LAST, BitVec.le_def] using this
  · rintro rfl
    revert h
    simp only [Outcome.ok_bind]
    refine bind_not_trap (readVaru32_not_trap _ _ _) (fun a _ => ?_)
    obtain ⟨size, p⟩ := a
    simp only [if_true]
    refine bind_not_trap (readVaru32_not_trap _ _ _) (fun a _ => bind_not_trap (readFuncTypes_not_trap _ _ _ _) (fun b _ => ?_))
    obtain ⟨_, p1⟩ := a
    obtain ⟨_, p2⟩ := b
    simp only
    split <;> simp
  · rintro rfl
    revert h
    simp only [Outcome.ok_bind]
    refine bind_not_trap (readVaru32_not_trap _ _ _) (fun a _ => ?_)
    obtain ⟨size, p⟩ := a
    simp only [if_true]
    rw [if_neg (by decide)]
    refine bind_not_trap (readVaru32_not_trap _ _ _) (fun a _ => bind_not_trap (readFuncDecls_not_trap _ _ _ _) (fun b _ => ?_))
    obtain ⟨_, p1⟩ := a
    obtain ⟨_, p2⟩ := b
    simp only
    split <;> simp

theorem sectionsBytes_cons (s ss) : sectionsBytes (s :: ss) = s.1 :: (s.2.1 ++ s.2.2) ++ sectionsBytes ss := rfl

theorem compileLoop_ok {bs : List Byte} {f m pos m'} (hp : pos ≤ bs.length)
    (h : compileLoop bs f m pos = .ok m') :
    ∃ ss, bs.drop pos = sectionsBytes ss ∧ ∀ s ∈ ss, goodSection s := by
  induction f generalizing m pos with
  | zero => cases h
  | succ f ih =>
    rw [compileLoop] at h
    split at h
    · rename_i he
      exact ⟨[], by rw [he]; simp [sectionsBytes], by simp⟩
    · obtain ⟨⟨m1, p1⟩, h1, h2⟩ := Outcome.bind_eq_ok.1 h
      obtain ⟨s, hs, hd, _, hp'⟩ := decodeSection_ok h1
      obtain ⟨ss, hss, hg⟩ := ih hp' h2
      refine ⟨s :: ss, ?_, ?_⟩
      · rw [sectionsBytes_cons, hd, hss]
      · intro x hx
        rcases List.mem_cons.1 hx with rfl | hx
        · exact hs
        · exact hg x hx

theorem compileLoop_trap {bs : List Byte} {f m pos w} (hp : pos ≤ bs.length)
    (h : compileLoop bs f m pos = .trap w) :
    ∃ ss c t, bs.drop pos = sectionsBytes ss ++ c :: t ∧ (∀ s ∈ ss, goodSection s) ∧
      c.toNat ≤ 11 ∧ c ≠ SEC_TYPE ∧ c ≠ SEC_FUNC := by
  induction f generalizing m pos with
  | zero => cases h
  | succ f ih =>
    rw [compileLoop] at h
    split at h
    · cases h
    · cases hd : decodeSection bs m pos with
      | ok r =>
        obtain ⟨m1, p1⟩ := r
        rw [hd] at h
        obtain ⟨s, hs, hd', _, hp'⟩ := decodeSection_ok hd
        obtain ⟨ss, c, t, hss, hg, hc⟩ := ih hp' h
        refine ⟨s :: ss, c, t, ?_, ?_, hc⟩
        · rw [sectionsBytes_cons, hd', hss, List.append_assoc]
        · intro x hx
          rcases List.mem_cons.1 hx with rfl | hx
          · exact hs
          · exact hg x hx
      | trap v =>
        obtain ⟨c, t, h1, h2⟩ := decodeSection_trap hd
        exact ⟨[], c, t, by rw [h1]; rfl, by simp, h2⟩
      | throw _ => rw [hd] at h; cases h
      | ub _ => rw [hd] at h; cases h
      | fuel => rw [hd] at h; cases h

/-! ### Header -/

theorem leU32_append (a b c d : Byte) : leU32 (d ++ c ++ b ++ a) = [a, b, c, d] := by
  have h0 : (d ++ c ++ b ++ a).extractLsb' 0 8 = a := by
    apply BitVec.eq_of_getLsbD_eq
    intro i hi
    simp only [BitVec.getLsbD_extractLsb', BitVec.getLsbD_append]
    simp [hi]
  have h1 : (d ++ c ++ b ++ a).extractLsb' 8 8 = b := by
    apply BitVec.eq_of_getLsbD_eq
    intro i hi
    simp only [BitVec.getLsbD_extractLsb', BitVec.getLsbD_append]
    rw [if_neg (by omega), if_pos (by omega), show 8 + i - 8 = i by omega]
    simp [hi]
  have h2 : (d ++ c ++ b ++ a).extractLsb' 16 8 = c := by
    apply BitVec.eq_of_getLsbD_eq
    intro i hi
    simp only [BitVec.getLsbD_extractLsb', BitVec.getLsbD_append]
    rw [if_neg (by omega), if_neg (by omega), if_pos (by omega), show 16 + i - 8 - 8 = i by omega]
    simp [hi]
  have h3 : (d ++ c ++ b ++ a).extractLsb' 24 8 = d := by
    apply BitVec.eq_of_getLsbD_eq
    intro i hi
    simp only [BitVec.getLsbD_extractLsb', BitVec.getLsbD_append]
    rw [if_neg (by omega), if_neg (by omega), if_neg (by omega), show 24 + i - 8 - 8 - 8 = i by omega]
    simp [hi]
  unfold leU32
  rw [h0, h1, h2, h3]

theorem readU32_bytes {bs : List Byte} {pos : Nat} {v : U32} {p : Nat} (h : readU32 bs pos = .ok (v, p)) :
    p = pos + 4 ∧ p ≤ bs.length ∧ bs.drop pos = leU32 v ++ bs.drop p := by
  unfold readU32 at h
  split at h
  · cases h
  · rename_i hl
    rw [List.getElem?_eq_getElem (by omega : pos < bs.length),
      List.getElem?_eq_getElem (by omega : pos + 1 < bs.length),
      List.getElem?_eq_getElem (by omega : pos + 2 < bs.length),
      List.getElem?_eq_getElem (by omega : pos + 3 < bs.length)] at h
    simp only at h
    injection h with h
    injection h with h1 h2
    refine ⟨h2.symm, by omega, ?_⟩
    rw [← h1, leU32_append]
    subst h2
    rw [List.drop_eq_getElem_cons (by omega : pos < bs.length),
      List.drop_eq_getElem_cons (by omega : pos + 1 < bs.length),
      List.drop_eq_getElem_cons (by omega : pos + 2 < bs.length),
      List.drop_eq_getElem_cons (by omega : pos + 3 < bs.length)]
    rfl

theorem readHeader_ok {bs : List Byte} {p} (h : readHeader bs = .ok p) :
    p = 8 ∧ 8 ≤ bs.length ∧ bs = header ++ bs.drop 8 := by
  unfold readHeader at h
  obtain ⟨⟨v, p1⟩, h1, h⟩ := Outcome.bind_eq_ok.1 h
  simp only at h
  split at h
  · cases h
  rename_i hv
  obtain ⟨⟨v2, p2⟩, h2, h⟩ := Outcome.bind_eq_ok.1 h
  simp only at h
  split at h
  · cases h
  rename_i hv2
  cases h
  obtain ⟨rfl, _, e1⟩ := readU32_bytes h1
  obtain ⟨rfl, hle, e2⟩ := readU32_bytes h2
  rw [Decidable.not_not.1 hv] at e1
  rw [Decidable.not_not.1 hv2] at e2
  refine ⟨rfl, hle, ?_⟩
  rw [List.drop_zero] at e1
  rw [← leHeader, List.append_assoc]
  conv => lhs; rw [e1, e2]

end Ab
