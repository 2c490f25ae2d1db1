import Verif.Model.LineSteps
import Verif.Props.LineInfo
/-! C120: looking up a line takes logarithmically many steps. -/
namespace Ab.LI
open Spec (lineOf lineStart)

theorem searchSteps_erase (bs : List Nat) (o : Nat) : ∀ (fuel l r : Nat),
    (searchSteps bs o fuel l r).bind (fun p => .ok p.1) = search bs o fuel l r
  | 0, _, _ => rfl
  | fuel + 1, l, r => by
    rw [search, searchSteps]
    by_cases h : l ≤ r
    · rw [if_pos h, if_pos h]
      dsimp only
      cases at' bs ((l + r) / 2 + 1) with
      | ok e =>
        simp only [Outcome.ok_bind]
        by_cases h1 : e < (o + 1) % 2^64
        · rw [if_pos h1, if_pos h1, ← searchSteps_erase bs o fuel]
          cases searchSteps bs o fuel ((l + r) / 2 + 1) r <;> rfl
        · rw [if_neg h1, if_neg h1]
          cases at' bs ((l + r) / 2) with
          | ok s =>
            simp only [Outcome.ok_bind]
            by_cases h2 : o < s
            · rw [if_pos h2, if_pos h2, ← searchSteps_erase bs o fuel]
              cases searchSteps bs o fuel l (((l + r) / 2 + (2^64 - 1)) % 2^64) <;> rfl
            · rw [if_neg h2, if_neg h2]; rfl
          | throw _ => rfl
          | trap _ => rfl
          | ub _ => rfl
          | fuel => rfl
      | throw _ => rfl
      | trap _ => rfl
      | ub _ => rfl
      | fuel => rfl
    · rw [if_neg h, if_neg h]; rfl

/-- Each iteration halves the interval. -/
theorem searchSteps_bound (bs : List Nat) (o : Nat) (h0 : bs[0]? = some 0) (hlen : bs.length < 2^64) : ∀ (fuel l r m k : Nat), r < bs.length →
    searchSteps bs o fuel l r = .ok (m, k) → 2 ^ k ≤ 2 * (r + 1 - l)
  | 0, _, _, _, _, _, h => by cases h
  | fuel + 1, l, r, m, k, hr, h => by
    rw [searchSteps] at h
    by_cases hlr : l ≤ r
    · rw [if_pos hlr] at h
      dsimp only at h
      obtain ⟨e, _, h⟩ := Outcome.bind_eq_ok.1 h
      split at h
      · obtain ⟨⟨a, j⟩, h1, h⟩ := Outcome.bind_eq_ok.1 h
        injection h with h
        injection h with _ h
        have := searchSteps_bound bs o h0 hlen fuel _ _ _ _ hr h1
        rw [← h, Nat.pow_succ]
        dsimp only
        omega
      · obtain ⟨s, hs, h⟩ := Outcome.bind_eq_ok.1 h
        split at h
        · rename_i hos
          obtain ⟨⟨a, j⟩, h1, h⟩ := Outcome.bind_eq_ok.1 h
          injection h with h
          injection h with _ h
          by_cases hm : (l + r) / 2 = 0
          · -- the middle is zero: the offset would be before the first break
            exfalso
            rw [hm, at', h0] at hs
            injection hs with hs
            omega
          · have hw : ((l + r) / 2 + (2^64 - 1)) % 2^64 = (l + r) / 2 - 1 := by omega
            rw [hw] at h1
            have := searchSteps_bound bs o h0 hlen fuel _ _ _ _ (by omega) h1
            rw [← h, Nat.pow_succ]
            dsimp only
            omega
        · injection h with h
          injection h with _ h
          rw [← h]
          omega
    · rw [if_neg hlr] at h; cases h

/-- **C120**: counting changes nothing. -/
theorem C120_same_answer (bs : List Nat) (offset : Nat) :
    (locationSteps bs offset).bind (fun p => .ok p.1) = location bs offset := by
  unfold locationSteps location line
  dsimp only
  cases at' bs (bs.length - 1) with
  | ok last =>
    simp only [Outcome.ok_bind]
    by_cases h : last ≤ offset
    · rw [if_pos h, if_pos h]
      simp only [Outcome.pure_eq, Outcome.ok_bind]
      cases at' bs (bs.length - 1) <;> rfl
    · rw [if_neg h, if_neg h, ← searchSteps_erase]
      cases searchSteps bs offset (bs.length + 1) 0 (bs.length - 1) with
      | ok p =>
        show ((at' bs p.1).bind _).bind _ = (at' bs p.1).bind _
        cases at' bs p.1 <;> rfl
      | throw _ => rfl
      | trap _ => rfl
      | ub _ => rfl
      | fuel => rfl
  | throw _ => rfl
  | trap _ => rfl
  | ub _ => rfl
  | fuel => rfl

/-- **C120**: for every list of recorded breaks in increasing order and every offset, looking up the line and column takes at
most `k` iterations where `2^k ≤ 2 n` and `n` is the number of lines: one more than the base-2 logarithm of `n`. -/
theorem C120_steps (recorded : List Nat) (offset : Nat) (hs : recorded.Pairwise (· ≤ ·)) (hb : ∀ b ∈ recorded, b < 2^64)
    (ho : offset < 2^64) (hlen : recorded.length + 1 < 2^64) :
    ∃ k, locationSteps (breaks recorded) offset =
        .ok ((lineOf recorded offset, offset - lineStart recorded (lineOf recorded offset)), k) ∧
      2 ^ k ≤ 2 * (recorded.length + 1) := by
  have h := (C35_line_and_column recorded offset hs hb ho hlen).2.2.1
  rw [← C120_same_answer] at h
  obtain ⟨⟨a, k⟩, h1, h2⟩ := Outcome.bind_eq_ok.1 h
  injection h2 with h2
  dsimp only at h2
  rw [h2] at h1
  refine ⟨k, h1, ?_⟩
  unfold locationSteps at h1
  dsimp only at h1
  obtain ⟨last, _, h1⟩ := Outcome.bind_eq_ok.1 h1
  by_cases hl : last ≤ offset
  · rw [if_pos hl] at h1
    simp only [Outcome.pure_eq, Outcome.ok_bind] at h1
    obtain ⟨s, _, h1⟩ := Outcome.bind_eq_ok.1 h1
    injection h1 with h1
    injection h1 with _ h1
    rw [← h1]; omega
  · rw [if_neg hl] at h1
    obtain ⟨⟨l, j⟩, h3, h1⟩ := Outcome.bind_eq_ok.1 h1
    obtain ⟨s, _, h1⟩ := Outcome.bind_eq_ok.1 h1
    injection h1 with h1
    injection h1 with _ h1
    dsimp only at h1
    subst h1
    have := searchSteps_bound (breaks recorded) offset rfl (by show recorded.length + 1 < _; omega) _ _ _ _ _
      (by show recorded.length + 1 - 1 < recorded.length + 1; omega) h3
    have e : (breaks recorded).length = recorded.length + 1 := rfl
    rw [e] at this
    omega

/-- Nine lines; offset 7 is on line 3, found in four iterations. -/
example : locationSteps (breaks [2, 4, 6, 8, 10, 12, 14, 16]) 7 = .ok ((3, 1), 4) ∧
    [2, 4, 6, 8, 10, 12, 14, 16].Pairwise (· ≤ ·) := by decide +kernel

end Ab.LI
