import Verif.Proof.Module4

namespace Ab
open Spec

/-- A number read anywhere at or after the start of another number and before its end, ends where that one ends. -/
theorem isLeb_suffix {e : List Byte} (he : IsLeb e) (k : Nat) (hk : k < e.length) : IsLeb (e.drop k) := by
  induction k generalizing e with
  | zero => exact he
  | succ k ih =>
    cases e with
    | nil => simp at hk
    | cons b t =>
      rcases isLeb_cons he with ⟨_, rfl⟩ | ⟨_, ht⟩
      · simp at hk
      · rw [List.drop_succ_cons]
        exact ih ht (by simpa using hk)

theorem readVaru32_end_le {bs : List Byte} {s b q pos : Nat} {v v' : U32} (hs : s ≤ bs.length)
    (h : readVaru32 bs s = .ok (v, b)) (hsp : s ≤ pos) (hpos : pos ≤ bs.length)
    (h' : readVaru32 bs pos = .ok (v', q)) : b ≤ q := by
  obtain ⟨e1, l1, _, _, r1, d1⟩ := readVaru32_ok hs h
  obtain ⟨e2, l2, _, _, r2, d2⟩ := readVaru32_ok hpos h'
  by_cases hlt : pos < b
  · have hk : pos - s < e1.length := by omega
    have hsuf := isLeb_suffix l1 (pos - s) hk
    have : bs.drop pos = e1.drop (pos - s) ++ bs.drop b := by
      have e : bs.drop pos = (bs.drop s).drop (pos - s) := by
        rw [List.drop_drop]; congr 1; omega
      rw [e, d1, List.drop_append_of_le_length (by omega)]
    rw [d2] at this
    have := isLeb_prefix_unique l2 hsuf this
    rw [r2, this, List.length_drop]
    omega
  · omega

theorem isLeb_pos {e : List Byte} (h : IsLeb e) : 1 ≤ e.length := by
  cases e with
  | nil => exact absurd h id
  | cons _ _ => simp

theorem decodeCodeEntry_parts {bs : List Byte} {m i pos f p} (hp : pos ≤ bs.length)
    (h : decodeCodeEntry bs m i pos = .ok (f, p)) :
    ∃ size start, readVaru32 bs pos = .ok (size, start) ∧ readVaru32 bs start = .ok (f.varNregs, f.body) ∧
      p = start + size.toNat ∧ pos < start ∧ start ≤ bs.length ∧ start < f.body ∧ p ≤ bs.length := by
  unfold decodeCodeEntry at h
  obtain ⟨⟨size, p1⟩, h1, h⟩ := Outcome.bind_eq_ok.1 h
  obtain ⟨⟨nregs, p2⟩, h2, h⟩ := Outcome.bind_eq_ok.1 h
  obtain ⟨p3, h3, h⟩ := Outcome.bind_eq_ok.1 h
  obtain ⟨⟨ti', t⟩, h4, h⟩ := Outcome.bind_eq_ok.1 h
  cases h
  have s1 := readVaru32_safe bs pos
  rw [h1] at s1
  obtain ⟨e1, l1, _, _, r1, _⟩ := readVaru32_ok hp h1
  obtain ⟨e2, l2, _, _, r2, _⟩ := readVaru32_ok s1.2 h2
  have := isLeb_pos l1
  have := isLeb_pos l2
  unfold reposition at h3
  split at h3
  · injection h3 with h3
    exact ⟨size, p1, h1, h2, h3.symm, by omega, s1.2, by simp only [Func.make]; omega, by omega⟩
  · cases h3

theorem decodeCodeEntries_bodies {bs : List Byte} {m n i pos fs p L} (hp : pos ≤ bs.length)
    (hL : ∀ v q, readVaru32 bs pos = .ok (v, q) → L ≤ q)
    (h : decodeCodeEntries bs m n i pos = .ok (fs, p)) :
    (∀ f ∈ fs, L < f.body) ∧ fs.Pairwise (fun f g => f.body < g.body) := by
  induction n generalizing i pos fs L with
  | zero => cases h; simp
  | succ n ih =>
    rw [decodeCodeEntries] at h
    obtain ⟨⟨f0, p1⟩, h1, h⟩ := Outcome.bind_eq_ok.1 h
    obtain ⟨⟨fs0, p2⟩, h2, h⟩ := Outcome.bind_eq_ok.1 h
    cases h
    obtain ⟨size, start, r1, r2, hp1, hlt, hst, hb, hple⟩ := decodeCodeEntry_parts hp h1
    have hLs := hL _ _ r1
    obtain ⟨hall, hpw⟩ := ih (L := f0.body) hple (fun v q hq =>
      readVaru32_end_le hst r2 (by omega) hple hq) h2
    refine ⟨fun f hf => ?_, List.pairwise_cons.2 ⟨hall, hpw⟩⟩
    rcases List.mem_cons.1 hf with rfl | hf
    · omega
    · have := hall f hf; omega

theorem compile_ok_header {bs m} (h : compile bs = .ok m) :
    8 ≤ bs.length ∧ bs = header ++ bs.drop 8 ∧ compileLoop bs (bs.length + 1) Module.empty 8 = .ok m := by
  unfold compile at h
  obtain ⟨p, h1, h2⟩ := Outcome.bind_eq_ok.1 h
  obtain ⟨rfl, hl, hb⟩ := readHeader_ok h1
  exact ⟨hl, hb, h2⟩

theorem At.append (pre e suf : List Byte) : At (pre ++ e ++ suf) pre.length e := ⟨pre, suf, rfl, rfl⟩

end Ab
