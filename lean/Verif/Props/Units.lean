import Verif.Spec.Units
/-! C126: memory units. -/
namespace Ab.Units

open Spec

theorem times_cases {t : IntTy} (ht : Proper t) {n : Int} (hn : FitsType t n) :
    (FitsType t (n * 1024) → times1024 t n = .ok (n * 1024)) ∧
    (t.signed = true ∧ 32 ≤ t.bits → ¬ FitsType t (n * 1024) → times1024 t n = .ub "signed overflow") ∧
    (¬ (t.signed = true ∧ 32 ≤ t.bits) → ∃ v, times1024 t n = .ok v ∧ Wrapped t (n * 1024) v) := by
  obtain ⟨s, b⟩ := t
  have e : 1024 * n = n * 1024 := Int.mul_comm _ _
  -- what is computed
  have hs : s = true → 32 ≤ b → times1024 ⟨s, b⟩ n =
      if -2^(b - 1) ≤ n * 1024 ∧ n * 1024 ≤ 2^(b - 1) - 1 then .ok ((n * 1024).bmod (2^b)) else .ub "signed overflow" := by
    intro h1 h2
    subst h1
    have : ¬ b < 32 := by omega
    simp only [times1024, common, mul, this, IntTy.lo, IntTy.hi, IntTy.convert, e, if_false, if_true]
    split <;> rfl
  have hu : s = false → 32 ≤ b → times1024 ⟨s, b⟩ n = .ok ((n * 1024) % 2^b % 2^b) := by
    intro h1 h2
    subst h1
    have : ¬ b < 32 := by omega
    simp only [times1024, common, mul, this, IntTy.convert, e, if_false, Bool.false_eq_true]
    rfl
  have hsmall : b < 32 → -2^31 ≤ n * 1024 ∧ n * 1024 ≤ 2^31 - 1 →
      times1024 ⟨s, b⟩ n = .ok (if s then (n * 1024).bmod (2^b) else (n * 1024) % 2^b) := by
    intro h1 h2
    have h3 : int.lo ≤ n * 1024 ∧ n * 1024 ≤ int.hi := h2
    simp only [times1024, common, mul, h1, e, if_true]
    rw [show int.signed = true from rfl, if_pos rfl, if_pos h3]
    rfl
  unfold Proper at ht
  dsimp only at ht
  rcases ht with rfl | rfl | rfl | rfl <;> cases s <;> simp only [FitsType, Wrapped] at hn ⊢
  · rw [hsmall (by decide) (by omega)]
    simp only [Bool.false_eq_true, if_false]
    refine ⟨fun _ => congrArg _ (by omega), fun h => absurd h.1 (by decide), fun _ => ⟨_, rfl, by omega, (n * 1024) / 2^8, by omega⟩⟩
  · rw [hsmall (by decide) (by omega)]
    simp only [if_true, Int.bmod_def]
    refine ⟨fun _ => congrArg _ (by omega), fun h => absurd h.2 (by decide), fun _ => ⟨_, rfl, ?_⟩⟩
    split
    · exact ⟨by omega, (n * 1024) / 2^8, by omega⟩
    · exact ⟨by omega, (n * 1024) / 2^8 + 1, by omega⟩
  · rw [hsmall (by decide) (by omega)]
    simp only [Bool.false_eq_true, if_false]
    refine ⟨fun _ => congrArg _ (by omega), fun h => absurd h.1 (by decide), fun _ => ⟨_, rfl, by omega, (n * 1024) / 2^16, by omega⟩⟩
  · rw [hsmall (by decide) (by omega)]
    simp only [if_true, Int.bmod_def]
    refine ⟨fun _ => congrArg _ (by omega), fun h => absurd h.2 (by decide), fun _ => ⟨_, rfl, ?_⟩⟩
    split
    · exact ⟨by omega, (n * 1024) / 2^16, by omega⟩
    · exact ⟨by omega, (n * 1024) / 2^16 + 1, by omega⟩
  · rw [hu rfl (by decide)]
    refine ⟨fun _ => congrArg _ (by omega), fun h => absurd h.1 (by decide), fun _ => ⟨_, rfl, by omega, (n * 1024) / 2^32, by omega⟩⟩
  · rw [hs rfl (by decide)]
    refine ⟨fun h => ?_, fun _ h => ?_, fun h => absurd (by decide) h⟩
    · rw [if_pos (by omega), Int.bmod_def]; exact congrArg _ (by omega)
    · rw [if_neg (by omega)]
  · rw [hu rfl (by decide)]
    refine ⟨fun _ => congrArg _ (by omega), fun h => absurd h.1 (by decide), fun _ => ⟨_, rfl, by omega, (n * 1024) / 2^64, by omega⟩⟩
  · rw [hs rfl (by decide)]
    refine ⟨fun h => ?_, fun _ h => ?_, fun h => absurd (by decide) h⟩
    · rw [if_pos (by omega), Int.bmod_def]; exact congrArg _ (by omega)
    · rw [if_neg (by omega)]

/-- `times1024` so many times over. -/
def nested (t : IntTy) : Nat → Int → Outcome Int
  | 0, n => .ok n
  | j + 1, n => nested t j n >>= times1024 t

theorem nested_cases {t : IntTy} (ht : Proper t) {n : Int} (hn : FitsType t n) (j : Nat) :
    (FitsType t (n * 1024^j) → nested t j n = .ok (n * 1024^j)) ∧
    (t.signed = true ∧ 32 ≤ t.bits → ¬ FitsType t (n * 1024^j) → nested t j n = .ub "signed overflow") ∧
    (¬ (t.signed = true ∧ 32 ≤ t.bits) → ∃ v, nested t j n = .ok v ∧ Wrapped t (n * 1024^j) v) := by
  induction j with
  | zero =>
    simp only [Int.pow_zero, Int.mul_one, nested]
    exact ⟨fun _ => trivial, fun _ h => absurd hn h, fun _ => ⟨n, rfl, hn, 0, by simp⟩⟩
  | succ j ih =>
    obtain ⟨i1, i2, i3⟩ := ih
    have e : n * 1024^(j+1) = n * 1024^j * 1024 := by rw [Int.pow_succ, Int.mul_assoc]
    rw [e]
    generalize n * 1024^j = w at *
    have down : FitsType t (w * 1024) → FitsType t w := by
      obtain ⟨s, b⟩ := t
      unfold Proper at ht
      dsimp only at ht
      rcases ht with rfl | rfl | rfl | rfl <;> cases s <;> simp only [FitsType] <;> omega
    refine ⟨fun h => ?_, fun h1 h2 => ?_, fun h => ?_⟩
    · rw [nested, i1 (down h), Outcome.ok_bind]
      exact (times_cases ht (down h)).1 h
    · rw [nested]
      by_cases hw : FitsType t w
      · rw [i1 hw, Outcome.ok_bind]; exact (times_cases ht hw).2.1 h1 h2
      · rw [i2 h1 hw]; rfl
    · obtain ⟨v, hv, hf, k, hk⟩ := i3 h
      obtain ⟨v', hv', hf', k', hk'⟩ := (times_cases ht hf).2.2 h
      refine ⟨v', by rw [nested, hv, Outcome.ok_bind, hv'], hf', k' + k * 1024, ?_⟩
      rw [hk, Int.add_mul, hk', Int.add_mul, Int.mul_right_comm, Int.add_assoc]

theorem unit_nested {u : (IntTy → Int → Outcome Int) × Int} (hu : u ∈ units) :
    ∃ j, u.2 = 1024^j ∧ ∀ t n, u.1 t n = nested t j n := by
  simp only [units, List.mem_cons, List.not_mem_nil, or_false] at hu
  have k : ∀ t n, kibibytes t n = nested t 1 n := fun t n => rfl
  have m : ∀ t n, mebibytes t n = nested t 2 n := fun t n => rfl
  have g : ∀ t n, gibibytes t n = nested t 3 n := fun t n => rfl
  have b : ∀ t n, tebibytes t n = nested t 4 n := fun t n => rfl
  rcases hu with rfl | rfl | rfl | rfl | rfl
  · exact ⟨0, rfl, fun _ _ => rfl⟩
  · exact ⟨1, rfl, k⟩
  · exact ⟨2, rfl, m⟩
  · exact ⟨3, rfl, g⟩
  · exact ⟨4, rfl, b⟩

/-- C126, where it holds: so many bytes, kibibytes, mebibytes, gibibytes or tebibytes are 1, 2^10, 2^20, 2^30 or 2^40
times as many bytes, for every integer type the product fits into. Missing: products that do not fit, for which it is
false (below). -/
theorem C126_exact_partial (t : IntTy) (ht : Proper t) (n : Int) (hn : FitsType t n) (u : (IntTy → Int → Outcome Int) × Int)
    (hu : u ∈ units) (h : FitsType t (n * u.2)) : u.1 t n = .ok (n * u.2) := by
  obtain ⟨j, h1, h2⟩ := unit_nested hu
  rw [h2, h1]
  rw [h1] at h
  exact (nested_cases ht hn j).1 h

/-- C126, products that do not fit: undefined for `int` and `long`; for the unsigned types, and those narrower than
`int`, something that differs from the product by a multiple of 2^8, 2^16, 2^32 or 2^64 is returned. -/
theorem C126_too_large (t : IntTy) (ht : Proper t) (n : Int) (hn : FitsType t n) (u : (IntTy → Int → Outcome Int) × Int)
    (hu : u ∈ units) (h : ¬ FitsType t (n * u.2)) :
    (t.signed = true ∧ 32 ≤ t.bits → (u.1 t n).isUb = true) ∧
    (¬ (t.signed = true ∧ 32 ≤ t.bits) → ∃ v, u.1 t n = .ok v ∧ v ≠ n * u.2 ∧ Wrapped t (n * u.2) v) := by
  obtain ⟨j, h1, h2⟩ := unit_nested hu
  rw [h2, h1]
  rw [h1] at h
  refine ⟨fun hw => ?_, fun hw => ?_⟩
  · rw [(nested_cases ht hn j).2.1 hw h]; rfl
  · obtain ⟨v, h3, h4⟩ := (nested_cases ht hn j).2.2 hw
    exact ⟨v, h3, fun he => h (he ▸ h4.1), h4⟩

/-- C126, literals: `5_KiB` and so on, for every literal `n`. -/
theorem C126_literals_partial (n : Int) (h0 : 0 ≤ n) :
    (n < 2^64 → litB n = .ok n) ∧ (n * 2^10 < 2^64 → litKiB n = .ok (n * 2^10)) ∧
    (n * 2^20 < 2^64 → litMiB n = .ok (n * 2^20)) ∧ (n * 2^30 < 2^64 → litGiB n = .ok (n * 2^30)) := by
  have p : Proper ull := Or.inr (Or.inr (Or.inr rfl))
  have key : ∀ u ∈ units, 1 ≤ u.2 → n * u.2 < 2^64 → u.1 ull n = .ok (n * u.2) := by
    intro u hu h1 h
    have h2 : n ≤ n * u.2 := by
      have := Int.mul_le_mul_of_nonneg_left h1 h0
      rwa [Int.mul_one] at this
    refine C126_exact_partial ull p n ?_ u hu ?_
    · simp only [FitsType, ull]; omega
    · simp only [FitsType, ull]; omega
  refine ⟨fun _ => rfl, fun h => ?_, fun h => ?_, fun h => ?_⟩
  · exact key (kibibytes, 2^10) (by simp [units]) (by decide) h
  · exact key (mebibytes, 2^20) (by simp [units]) (by decide) h
  · exact key (gibibytes, 2^30) (by simp [units]) (by decide) h

/-- 8 KiB as a `std::size_t`, the size of the interpreter's stack; -3 MiB as an `int`. -/
example : kibibytes ⟨false, 64⟩ 8 = .ok 8192 ∧ mebibytes ⟨true, 32⟩ (-3) = .ok (-3145728) ∧
    Proper ⟨true, 32⟩ ∧ FitsType ⟨true, 32⟩ (-3) ∧ FitsType ⟨true, 32⟩ (-3 * 2^20) ∧ ¬ FitsType ⟨true, 32⟩ (2 * 2^30) := by
  refine ⟨rfl, rfl, by simp [Proper], ?_, ?_, ?_⟩ <;> simp [FitsType]

/-- C126 fails: 2^34 GiB are no bytes, 4 TiB as an `unsigned int` are none, and 2 GiB as an `int` are undefined. -/
theorem C126_negation : litGiB (2^34) = .ok 0 ∧ tebibytes ⟨false, 32⟩ 4 = .ok 0 ∧
    (gibibytes ⟨true, 32⟩ 2).isUb = true := by decide +kernel

end Ab.Units
