import Verif.Spec.EdnReal
import Verif.Proof.EdnReal
/-! Rounding to 53 bits. -/
namespace Ab.Edn

open Spec

theorem two_zpow_pos (e : Int) : (0 : Rat) < 2 ^ e := Rat.zpow_pos (by decide)

theorem zpow_split (e k : Int) (h : k ≤ e) : (2 : Rat) ^ e = ((2 ^ (e - k).toNat : Nat) : Rat) * 2 ^ k := by
  have h1 : e = ((e - k).toNat : Int) + k := by omega
  have h2 : (2 : Rat) ≠ 0 := by decide
  conv => lhs; rw [h1]
  rw [Rat.zpow_add h2, Rat.zpow_natCast]
  simp [Rat.natCast_pow]

/-- Large doubles lie on the grid. -/
theorem double_grid {z : Rat} (h : IsDouble z) (k : Int) (hz : 2 ^ 52 * 2 ^ k ≤ mag z) :
    ∃ n : Int, z = n * 2 ^ k := by
  obtain ⟨m, e, hm, rfl⟩ := h
  by_cases hk : k ≤ e
  · refine ⟨m * (2 ^ (e - k).toNat : Nat), ?_⟩
    rw [zpow_split e k hk]
    simp only [Rat.intCast_mul, Rat.intCast_natCast]
    grind
  · exfalso
    have h1 := zpow_split k e (by omega)
    have h2 : (2 : Nat) ≤ 2 ^ (k - e).toNat := by
      have h3 : (k - e).toNat = ((k - e).toNat - 1) + 1 := by omega
      rw [h3, Nat.pow_succ]
      have := Nat.one_le_two_pow (n := (k - e).toNat - 1)
      omega
    have h3 : (2 : Rat) ≤ ((2 ^ (k - e).toNat : Nat) : Rat) := by
      exact_mod_cast h2
    have he := two_zpow_pos e
    have h4 : 2 * 2 ^ e ≤ (2 : Rat) ^ k := by
      rw [h1]; exact Rat.mul_le_mul_of_nonneg_right h3 (Rat.le_of_lt he)
    have h5 : mag ((m : Rat) * 2 ^ e) < 2 ^ 53 * 2 ^ e := by
      have h6 : ((-(2 ^ 53) : Int) : Rat) < (m : Rat) := Rat.intCast_lt_intCast.mpr (by omega)
      have h7 : (m : Rat) < ((2 ^ 53 : Int) : Rat) := Rat.intCast_lt_intCast.mpr (by omega)
      have h8 := Rat.mul_lt_mul_of_pos_right h6 he
      have h9 := Rat.mul_lt_mul_of_pos_right h7 he
      simp only [Rat.intCast_neg, Rat.intCast_pow] at h8 h9
      unfold mag
      split <;> grind
    grind

theorem mag_neg (x : Rat) : mag (-x) = mag x := by unfold mag; grind
theorem mag_nonneg (x : Rat) : 0 ≤ mag x := by unfold mag; grind
theorem mag_of_nonneg {x : Rat} (h : 0 ≤ x) : mag x = x := by unfold mag; grind
theorem mag_zero_iff {x : Rat} : mag x ≤ 0 ↔ x = 0 := by unfold mag; grind

theorem IsDouble.neg {x : Rat} (h : IsDouble x) : IsDouble (-x) := by
  obtain ⟨m, e, hm, rfl⟩ := h
  exact ⟨-m, e, by omega, by simp only [Rat.intCast_neg]; grind⟩

theorem isDouble_int {i : Int} (h : i.natAbs < 2^53) : IsDouble i := ⟨i, 0, h, by simp⟩

theorem Nearest.neg {x y : Rat} (h : Nearest x y) : Nearest (-x) (-y) := by
  refine ⟨IsDouble.neg h.1, fun z hz => ?_⟩
  have := h.2 (-z) (IsDouble.neg hz)
  rw [show -x - -y = -(x - y) by grind, mag_neg, show -x - z = -(x - -z) by grind, mag_neg]
  exact this

/-- A double is nearest to itself only. -/
theorem nearest_exact {x y : Rat} (h : Nearest x y) (hx : IsDouble x) : y = x := by
  have h1 := h.2 x hx
  have h2 : mag (x - y) ≤ 0 := by
    rw [show x - x = 0 by grind] at h1
    exact h1
  have := mag_zero_iff.mp h2
  grind

/-- Powers of two around a number. -/
theorem scale_aux (x : Rat) : ∀ (n : Nat) (a : Int), 2 ^ a ≤ x → x < 2 ^ (a + n) → ∃ e : Int, 2 ^ e ≤ x ∧ x < 2 ^ (e + 1)
  | 0, a, h1, h2 => by simp at h2; grind
  | n + 1, a, h1, h2 => by
    by_cases h : x < 2 ^ (a + n)
    · exact scale_aux x n a h1 h
    · refine ⟨a + n, by grind, ?_⟩
      rw [show a + (n : Int) + 1 = a + ((n + 1 : Nat) : Int) by omega]
      exact h2

theorem nat_lt_two_pow (n : Nat) : (n : Rat) < 2 ^ (n : Int) := by
  rw [Rat.zpow_natCast]
  have : (n : Rat) < ((2 ^ n : Nat) : Rat) := Rat.natCast_lt_natCast.mpr Nat.lt_two_pow_self
  simpa [Rat.natCast_pow] using this

theorem scale {x : Rat} (h : 0 < x) : ∃ e : Int, 2 ^ 52 * 2 ^ e ≤ x ∧ x < 2 ^ 53 * 2 ^ e := by
  have h2 : (2 : Rat) ≠ 0 := by decide
  have up : ∀ x : Rat, 0 < x → ∃ n : Nat, x < 2 ^ (n : Int) := by
    intro x hx
    refine ⟨(x.floor + 1).toNat, ?_⟩
    have h1 := Rat.lt_floor_add_one x
    have h3 : 0 ≤ x.floor := Rat.le_floor_iff.mpr (by simpa using Rat.le_of_lt hx)
    have h4 := nat_lt_two_pow (x.floor + 1).toNat
    have h5 : (((x.floor + 1).toNat : Nat) : Rat) = (x.floor : Rat) + 1 := by
      have : ((x.floor + 1).toNat : Int) = x.floor + 1 := by omega
      rw [← Rat.intCast_natCast, this]
      simp [Rat.intCast_add]
    grind
  obtain ⟨N, hN⟩ := up x h
  obtain ⟨M, hM⟩ := up x⁻¹ (Rat.inv_pos.mpr h)
  have hlow : (2 : Rat) ^ (-(M : Int)) ≤ x := by
    rw [Rat.zpow_neg]
    have hp := two_zpow_pos M
    have : (2 : Rat) ^ (M : Int) * x > 1 := by
      have := Rat.mul_lt_mul_of_pos_right hM h
      rwa [Rat.inv_mul_cancel _ (by grind)] at this
    have h1 : ((2 : Rat) ^ (M : Int))⁻¹ > 0 := Rat.inv_pos.mpr hp
    have h2 := Rat.mul_lt_mul_of_pos_left this h1
    rw [← Rat.mul_assoc, Rat.inv_mul_cancel _ (by grind)] at h2
    grind
  obtain ⟨e, h3, h4⟩ := scale_aux x (N + M) (-(M : Int)) hlow (by
    rw [show -(M : Int) + ((N + M : Nat) : Int) = N by omega]; exact hN)
  refine ⟨e - 52, ?_, ?_⟩
  · have := zpow_split e (e - 52) (by omega)
    rw [show (e - (e - 52)).toNat = 52 by omega] at this
    rw [this] at h3
    rwa [show (((2 ^ 52 : Nat)) : Rat) = 2 ^ 52 by decide +kernel] at h3
  · have := zpow_split (e + 1) (e - 52) (by omega)
    rw [show (e + 1 - (e - 52)).toNat = 53 by omega] at this
    rw [this] at h4
    rwa [show (((2 ^ 53 : Nat)) : Rat) = 2 ^ 53 by decide +kernel] at h4

/-- Rounding a positive number on the grid of its binade. -/
theorem nearest_grid {x : Rat} {e : Int} (h1 : 2 ^ 52 * 2 ^ e ≤ x) (h2 : x < 2 ^ 53 * 2 ^ e) :
    ∃ y, Nearest x y ∧ mag (x - y) ≤ 2 ^ e / 2 := by
  have hp := two_zpow_pos e
  obtain ⟨n, hn1, hn2⟩ : ∃ n : Int, (n : Rat) * 2 ^ e ≤ x ∧ x < ((n + 1 : Int) : Rat) * 2 ^ e := by
    refine ⟨(x / 2 ^ e).floor, ?_, ?_⟩
    · have := Rat.mul_le_mul_of_nonneg_right (Rat.floor_le (x / 2 ^ e)) (Rat.le_of_lt hp)
      rwa [Rat.div_mul_cancel (by grind)] at this
    · have := Rat.mul_lt_mul_of_pos_right (Rat.lt_floor_add_one (x / 2 ^ e)) hp
      rw [Rat.div_mul_cancel (by grind)] at this
      simpa [Rat.intCast_add] using this
  have hlo : 2 ^ 52 ≤ n := by
    apply Classical.byContradiction
    intro hc
    have h3 : ((n + 1 : Int) : Rat) ≤ ((2 ^ 52 : Int) : Rat) := Rat.intCast_le_intCast.mpr (by omega)
    have h4 := Rat.mul_le_mul_of_nonneg_right h3 (Rat.le_of_lt hp)
    rw [show (((2 ^ 52 : Int)) : Rat) = 2 ^ 52 by decide +kernel] at h4
    grind
  have hhi : n < 2 ^ 53 := by
    apply Classical.byContradiction
    intro hc
    have h3 : ((2 ^ 53 : Int) : Rat) ≤ (n : Rat) := Rat.intCast_le_intCast.mpr (by omega)
    have h4 := Rat.mul_le_mul_of_nonneg_right h3 (Rat.le_of_lt hp)
    rw [show (((2 ^ 53 : Int)) : Rat) = 2 ^ 53 by decide +kernel] at h4
    grind
  have d1 : IsDouble ((n : Rat) * 2 ^ e) := ⟨n, e, by omega, rfl⟩
  have d2 : IsDouble (((n + 1 : Int) : Rat) * 2 ^ e) := by
    by_cases hn : n + 1 < 2 ^ 53
    · exact ⟨n + 1, e, by omega, rfl⟩
    · refine ⟨2 ^ 52, e + 1, by decide, ?_⟩
      rw [show n + 1 = 2 ^ 53 by omega, Rat.zpow_add (by decide)]
      rw [show (((2 ^ 53 : Int)) : Rat) = 2 ^ 52 * 2 by decide +kernel,
        show (((2 ^ 52 : Int)) : Rat) = 2 ^ 52 by decide +kernel, Rat.zpow_one]
      grind
  have hs : ((n + 1 : Int) : Rat) * 2 ^ e = (n : Rat) * 2 ^ e + 2 ^ e := by
    rw [Rat.intCast_add]; simp; grind
  -- a double is on one side or the other
  have side : ∀ z, IsDouble z → z ≤ (n : Rat) * 2 ^ e ∨ ((n + 1 : Int) : Rat) * 2 ^ e ≤ z := by
    intro z hz
    by_cases hm : 2 ^ 52 * 2 ^ e ≤ mag z
    · obtain ⟨k, rfl⟩ := double_grid hz e hm
      by_cases hk : k ≤ n
      · exact Or.inl (Rat.mul_le_mul_of_nonneg_right (Rat.intCast_le_intCast.mpr hk) (Rat.le_of_lt hp))
      · exact Or.inr (Rat.mul_le_mul_of_nonneg_right (Rat.intCast_le_intCast.mpr (by omega)) (Rat.le_of_lt hp))
    · left
      have h3 : ((2 ^ 52 : Int) : Rat) ≤ (n : Rat) := Rat.intCast_le_intCast.mpr (by omega)
      have h4 := Rat.mul_le_mul_of_nonneg_right h3 (Rat.le_of_lt hp)
      rw [show (((2 ^ 52 : Int)) : Rat) = 2 ^ 52 by decide +kernel] at h4
      have : z ≤ mag z := by unfold mag; grind
      grind
  generalize hY : ((n + 1 : Int) : Rat) * 2 ^ e = Y at *
  generalize hX : (n : Rat) * 2 ^ e = X at *
  generalize (2 : Rat) ^ e = P at *
  by_cases hc : x - X ≤ Y - x
  · refine ⟨X, ⟨d1, fun z hz => ?_⟩, ?_⟩
    · rcases side z hz with h | h <;> unfold mag <;> grind
    · unfold mag; grind
  · refine ⟨Y, ⟨d2, fun z hz => ?_⟩, ?_⟩
    · rcases side z hz with h | h <;> unfold mag <;> grind
    · unfold mag; grind

/-- Every number has a nearest double, and is off by at most half a unit in the last place. -/
theorem exists_nearest (x : Rat) : ∃ y, Nearest x y ∧ mag (x - y) ≤ mag x / 2 ^ 53 := by
  have pos : ∀ x : Rat, 0 < x → ∃ y, Nearest x y ∧ mag (x - y) ≤ mag x / 2 ^ 53 := by
    intro x hx
    obtain ⟨e, h1, h2⟩ := scale hx
    obtain ⟨y, hy, he⟩ := nearest_grid h1 h2
    refine ⟨y, hy, ?_⟩
    rw [mag_of_nonneg (Rat.le_of_lt hx)]
    grind
  by_cases h0 : x = 0
  · subst h0
    have d0 : IsDouble 0 := ⟨0, 0, by decide, by simp⟩
    refine ⟨0, ⟨d0, fun z _ => ?_⟩, by decide +kernel⟩
    have := mag_nonneg (0 - z)
    rw [show mag (0 - 0) = 0 by decide +kernel]; exact this
  · by_cases h : 0 < x
    · exact pos x h
    · obtain ⟨y, hy, he⟩ := pos (-x) (by grind)
      refine ⟨-y, ?_, ?_⟩
      · have := Nearest.neg hy
        rwa [show - -x = x by grind] at this
      · rw [show x - -y = -(-x - y) by grind, mag_neg, ← mag_neg x]; exact he

theorem nearest_err {x y : Rat} (h : Nearest x y) : mag (x - y) ≤ mag x / 2 ^ 53 := by
  obtain ⟨z, hz, he⟩ := exists_nearest x
  have := h.2 z hz.1
  grind

/-- Arithmetic that rounds exists. -/
theorem exists_rounds : ∃ A : Arith Rat, Rounds A := by
  refine ⟨⟨fun i => i, fun a b => (exists_nearest (a + b)).choose, fun a b => (exists_nearest (a * b)).choose,
    fun a b => (exists_nearest (a / b)).choose, fun e => (exists_nearest (10 ^ e)).choose⟩, ?_⟩
  refine ⟨fun _ _ => rfl, fun a b _ _ => (exists_nearest (a + b)).choose_spec.1,
    fun a b _ _ => (exists_nearest (a * b)).choose_spec.1,
    fun a b _ _ _ => (exists_nearest (a / b)).choose_spec.1, fun e => ⟨(exists_nearest (10 ^ e)).choose_spec.1.1, ?_⟩, ?_⟩
  · have h := (exists_nearest (10 ^ e)).choose_spec.2
    have hp : (0 : Rat) < 10 ^ e := Rat.zpow_pos (by decide)
    have hm := mag_of_nonneg (Rat.le_of_lt hp)
    refine Rat.le_trans h ?_
    rw [hm]
    grind
  · exact nearest_exact (exists_nearest (10 ^ 0)).choose_spec.1 ⟨1, 0, by decide, by decide +kernel⟩

end Ab.Edn
