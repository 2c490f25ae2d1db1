import Verif.Model.LineInfo
/-! C35: line and column lookup. -/
namespace Ab.Spec

/-- The line of an offset: how many recorded breaks are at or before it. -/
def lineOf (recorded : List Nat) (offset : Nat) : Nat := recorded.countP (· ≤ offset)

/-- Where a line starts: at the break that began it, or at 0. -/
def lineStart (recorded : List Nat) (line : Nat) : Nat := (0 :: recorded).getD line 0

end Ab.Spec

namespace Ab.LI

open Spec (lineOf lineStart)

theorem at_ok {bs : List Nat} {n : Nat} (h : n < bs.length) : at' bs n = .ok bs[n] := by
  simp [at', List.getElem?_eq_getElem h]

/-- In a sorted list the count of elements `≤ o` is the index of the first one beyond. -/
theorem countP_of_split {xs : List Nat} {o m : Nat} (hs : xs.Pairwise (· ≤ ·)) (hm : m ≤ xs.length)
    (h1 : ∀ (h : 0 < m), xs[m - 1]'(by omega) ≤ o) (h2 : ∀ (h : m < xs.length), o < xs[m]) :
    xs.countP (· ≤ o) = m := by
  rw [← List.take_append_drop m xs, List.countP_append]
  have hidx : ∀ (i j : Nat) (hi : i < xs.length) (hj : j < xs.length), i ≤ j → xs[i] ≤ xs[j] := by
    intro i j hi hj hij
    rcases Nat.lt_or_ge i j with h | h
    · exact List.pairwise_iff_getElem.mp hs i j hi hj h
    · have : i = j := by omega
      subst this; exact Nat.le_refl _
  have e1 : (xs.take m).countP (· ≤ o) = m := by
    have : (xs.take m).countP (· ≤ o) = (xs.take m).length := by
      rw [List.countP_eq_length]
      intro a ha
      obtain ⟨i, hi, rfl⟩ := List.getElem_of_mem ha
      simp only [List.length_take] at hi
      rw [List.getElem_take]
      have := hidx i (m - 1) (by omega) (by omega) (by omega)
      have := h1 (by omega)
      simp; omega
    rw [this, List.length_take]; omega
  have e2 : (xs.drop m).countP (· ≤ o) = 0 := by
    rw [List.countP_eq_zero]
    intro a ha
    obtain ⟨i, hi, rfl⟩ := List.getElem_of_mem ha
    simp only [List.length_drop] at hi
    rw [List.getElem_drop]
    have := hidx m (m + i) (by omega) (by omega) (by omega)
    have := h2 (by omega)
    simp; omega
  rw [e1, e2]; omega

/-- The search finds the line whose interval contains the offset. -/
theorem search_ok {bs : List Nat} {o : Nat} (hs : bs.Pairwise (· ≤ ·)) (h0 : bs[0]? = some 0)
    (hlen : bs.length < 2^64) (ho : o + 1 < 2^64) :
    ∀ (fuel l r : Nat), r < l + fuel → r < bs.length →
      (∀ (h : l < bs.length), bs[l] ≤ o) →
      (∀ (h : r + 1 < bs.length), o < bs[r + 1]) →
      (r + 1 = bs.length → ∃ h : bs.length - 1 < bs.length, o < bs[bs.length - 1]) →
      l < bs.length → l ≤ r →
      ∃ m, search bs o fuel l r = .ok m ∧ ∃ h : m + 1 < bs.length, bs[m] ≤ o ∧ o < bs[m + 1] := by
  intro fuel
  induction fuel with
  | zero => intro l r h; omega
  | succ fuel ih =>
    intro l r hf hr hl hR hlast hlb hlr
    have hidx : ∀ (i j : Nat) (hi : i < bs.length) (hj : j < bs.length), i ≤ j → bs[i] ≤ bs[j] := by
      intro i j hi hj hij
      rcases Nat.lt_or_ge i j with h | h
      · exact List.pairwise_iff_getElem.mp hs i j hi hj h
      · have : i = j := by omega
        subst this; exact Nat.le_refl _
    -- the middle is never the last line
    have hm1 : (l + r) / 2 + 1 < bs.length := by
      by_cases hlast' : r + 1 = bs.length
      · obtain ⟨_, hx⟩ := hlast hlast'
        have : l ≠ r := by
          intro hh
          have := hl hlb
          have h2 : bs[l] = bs[bs.length - 1] := by congr 1; omega
          omega
        omega
      · omega
    simp only [search]
    rw [if_pos hlr]
    rw [at_ok hm1]
    simp only [Outcome.ok_bind]
    have hmod : (o + 1) % 2^64 = o + 1 := Nat.mod_eq_of_lt ho
    rw [hmod]
    by_cases hlt : bs[(l + r) / 2 + 1] < o + 1
    · rw [if_pos hlt]
      have hne : (l + r) / 2 + 1 ≤ r := by
        rcases Nat.lt_or_ge r ((l + r) / 2 + 1) with h | h
        · exfalso
          have e : (l + r) / 2 = r := by omega
          have hb : r + 1 < bs.length := by omega
          have := hR hb
          have h2 : bs[(l + r) / 2 + 1] = bs[r + 1] := by congr 1; omega
          omega
        · exact h
      exact ih ((l + r) / 2 + 1) r (by omega) hr (by intro h; omega) hR hlast hm1 hne
    · rw [if_neg hlt]
      rw [at_ok (show (l + r) / 2 < bs.length by omega)]
      simp only [Outcome.ok_bind]
      by_cases hge : o < bs[(l + r) / 2]'(by omega)
      · rw [if_pos hge]
        have hmpos : l < (l + r) / 2 := by
          rcases Nat.lt_or_ge l ((l + r) / 2) with h | h
          · exact h
          · exfalso
            have e : (l + r) / 2 = l := by omega
            have := hl hlb
            have h2 : bs[(l + r) / 2]'(by omega) = bs[l] := by congr 1
            omega
        have hw : ((l + r) / 2 + (2^64 - 1)) % 2^64 = (l + r) / 2 - 1 := by
          omega
        rw [hw]
        apply ih l ((l + r) / 2 - 1) (by omega) (by omega) hl ?_ ?_ hlb (by omega)
        · intro h
          have e : (l + r) / 2 - 1 + 1 = (l + r) / 2 := by omega
          simp only [e]
          exact hge
        · intro h; omega
      · rw [if_neg hge]
        exact ⟨(l + r) / 2, rfl, hm1, by omega, by omega⟩

theorem line_ok {rec : List Nat} {o : Nat} (hs : rec.Pairwise (· ≤ ·)) (hlen : rec.length + 1 < 2^64)
    (hb : ∀ b ∈ rec, b < 2^64) :
    line (breaks rec) o = .ok (lineOf rec o) := by
  have hs' : (breaks rec).Pairwise (· ≤ ·) :=
    List.pairwise_cons.mpr ⟨fun _ _ => Nat.zero_le _, hs⟩
  have hlb : (breaks rec).length = rec.length + 1 := rfl
  unfold line
  simp only [hlb, Nat.add_sub_cancel]
  rw [at_ok (show rec.length < (breaks rec).length by omega)]
  simp only [Outcome.ok_bind]
  by_cases hlast : (breaks rec)[rec.length]'(by omega) ≤ o
  · rw [if_pos hlast]
    show Outcome.ok rec.length = _
    congr 1
    unfold lineOf
    symm
    apply countP_of_split hs (Nat.le_refl _)
    · intro h
      have e : (breaks rec)[rec.length]'(by omega) = rec[rec.length - 1]'(by omega) := by
        unfold breaks
        rw [List.getElem_cons]
        simp [Nat.ne_of_gt h]
      omega
    · intro h; omega
  · rw [if_neg hlast]
    have hne : rec ≠ [] := by
      intro h; subst h; simp [breaks] at hlast
    have hpos : 0 < rec.length := List.length_pos_iff.mpr hne
    have hlast2 : (breaks rec)[rec.length]'(by omega) < 2^64 := by
      have e : (breaks rec)[rec.length]'(by omega) = rec[rec.length - 1]'(by omega) := by
        unfold breaks
        rw [List.getElem_cons]
        simp [Nat.ne_of_gt hpos]
      rw [e]
      exact hb _ (List.getElem_mem _)
    obtain ⟨m, hm, hm1, h1, h2⟩ := search_ok (bs := breaks rec) (o := o) hs' rfl (by omega) (by omega)
      (rec.length + 1 + 1) 0 rec.length (by omega) (by omega)
      (by intro h; simp [breaks]) (by intro h; omega)
      (by
        intro _
        refine ⟨by omega, ?_⟩
        have h2 : (breaks rec)[(breaks rec).length - 1]'(by omega) = (breaks rec)[rec.length]'(by omega) := by
          congr 1
        omega)
      (by omega) (by omega)
    rw [hm]
    congr 1
    unfold lineOf
    symm
    apply countP_of_split hs (by omega)
    · intro h
      have e : (breaks rec)[m]'(by omega) = rec[m - 1]'(by omega) := by
        unfold breaks
        rw [List.getElem_cons]
        simp [Nat.ne_of_gt h]
      omega
    · intro h
      have e : (breaks rec)[m + 1] = rec[m] := by simp [breaks]
      omega

theorem lineStart_le {rec : List Nat} {o : Nat} (hs : rec.Pairwise (· ≤ ·)) :
    lineStart rec (lineOf rec o) ≤ o := by
  unfold lineStart lineOf
  rcases hk : rec.countP (· ≤ o) with _ | k
  · simp
  · have hlt : k < rec.length := by have := List.countP_le_length (p := (· ≤ o)) (l := rec); omega
    simp only [List.getD_cons_succ]
    rw [List.getD_eq_getElem?_getD, List.getElem?_eq_getElem hlt, Option.getD_some]
    rcases Nat.lt_or_ge o rec[k] with h | h
    · exfalso
      -- everything from `k` on is beyond `o`, so at most `k` elements count
      have hle : rec.countP (· ≤ o) ≤ k := by
        rw [← List.take_append_drop k rec, List.countP_append]
        have e1 : (rec.take k).countP (· ≤ o) ≤ k := by
          have := List.countP_le_length (p := (· ≤ o)) (l := rec.take k)
          rw [List.length_take] at this; omega
        have e2 : (rec.drop k).countP (· ≤ o) = 0 := by
          rw [List.countP_eq_zero]
          intro a ha
          obtain ⟨i, hi, rfl⟩ := List.getElem_of_mem ha
          simp only [List.length_drop] at hi
          rw [List.getElem_drop]
          rcases Nat.eq_zero_or_pos i with h0 | h0
          · subst h0; simpa using h
          · have := List.pairwise_iff_getElem.mp hs k (k + i) hlt (by omega) (by omega)
            simp; omega
        omega
      omega
    · exact h

/-- C35. For every list of recorded breaks in increasing order (repeats allowed) and every offset, the
lookup terminates without undefined behaviour; the line is the number of recorded breaks at or before the
offset, and the column is the distance from that line's start. The bounds say that breaks, offset and
table size are `size_t` values. -/
theorem C35_line_and_column (recorded : List Nat) (offset : Nat)
    (hs : recorded.Pairwise (· ≤ ·)) (hb : ∀ b ∈ recorded, b < 2^64) (ho : offset < 2^64)
    (hlen : recorded.length + 1 < 2^64) :
    line (breaks recorded) offset = .ok (lineOf recorded offset) ∧
    column (breaks recorded) offset = .ok (offset - lineStart recorded (lineOf recorded offset)) ∧
    location (breaks recorded) offset =
      .ok (lineOf recorded offset, offset - lineStart recorded (lineOf recorded offset)) ∧
    lineStart recorded (lineOf recorded offset) ≤ offset := by
  have h1 := line_ok (o := offset) hs hlen hb
  have hle := lineStart_le (o := offset) hs
  have hlt : lineOf recorded offset < (breaks recorded).length := by
    have := List.countP_le_length (p := (· ≤ offset)) (l := recorded)
    show _ < recorded.length + 1
    unfold lineOf; omega
  have hst : at' (breaks recorded) (lineOf recorded offset) =
      .ok (lineStart recorded (lineOf recorded offset)) := by
    rw [at_ok hlt]
    congr 1
    unfold lineStart
    rw [List.getD_eq_getElem?_getD]
    show _ = ((breaks recorded)[lineOf recorded offset]?).getD 0
    rw [List.getElem?_eq_getElem hlt]; rfl
  have hw : (offset + (2^64 - lineStart recorded (lineOf recorded offset))) % 2^64 =
      offset - lineStart recorded (lineOf recorded offset) := by
    rw [show offset + (2^64 - lineStart recorded (lineOf recorded offset)) =
      (offset - lineStart recorded (lineOf recorded offset)) + 2^64 by omega, Nat.add_mod_right,
      Nat.mod_eq_of_lt (by omega)]
  refine ⟨h1, ?_, ?_, hle⟩
  · simp only [column, h1, Outcome.ok_bind, hst, Outcome.pure_eq, hw]
  · simp only [location, h1, Outcome.ok_bind, hst, Outcome.pure_eq, hw]

/-- Three breaks, one repeated; an offset in the middle and one at the far end. -/
example : [5, 9, 9].Pairwise (· ≤ ·) ∧ line (breaks [5, 9, 9]) 7 = .ok 1 ∧
    column (breaks [5, 9, 9]) 7 = .ok 2 ∧ location (breaks [5, 9, 9]) (2^64 - 1) = .ok (3, 2^64 - 10) := by
  refine ⟨by decide, by decide +kernel, by decide +kernel, by decide +kernel⟩

end Ab.LI
