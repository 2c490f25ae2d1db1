import Verif.Model.Util
/-! C47, C48: integer hashing, string views, power-of-two arithmetic. -/
namespace Ab.Util

/-! ### C48 -/

theorem size_get {s : SizeP2} (h : s.exponent.toNat < 64) :
    s.get = .ok (BitVec.ofNat 64 (2 ^ s.exponent.toNat)) := by
  unfold SizeP2.get shl
  rw [if_pos h]
  congr 1
  apply BitVec.eq_of_toNat_eq
  rw [BitVec.toNat_shiftLeft, BitVec.toNat_ofNat, BitVec.toNat_ofNat, Nat.shiftLeft_eq]
  simp

theorem log2_toNat (s : SizeP2) : s.log2.toNat = s.exponent.toNat := by
  unfold SizeP2.log2
  have := s.exponent.isLt
  simp; omega

/-- C48: for every exponent below 64 and every operand, `get` is the power of two, and multiplying, dividing
and reducing by it are ordinary multiplication (modulo 2^64, as for `size_t`), division and remainder. -/
theorem C48_power_of_two_arithmetic (s : SizeP2) (h : s.exponent.toNat < 64) (a : U64) :
    (∃ g, s.get = .ok g ∧ g.toNat = 2 ^ s.exponent.toNat) ∧
    (∃ m, mul a s = .ok m ∧ m.toNat = a.toNat * 2 ^ s.exponent.toNat % 2^64) ∧
    (∃ d, div a s = .ok d ∧ d.toNat = a.toNat / 2 ^ s.exponent.toNat) ∧
    (∃ r, mod a s = .ok r ∧ r.toNat = a.toNat % 2 ^ s.exponent.toNat) ∧
    s.log2.toNat = s.exponent.toNat := by
  have hp : 2 ^ s.exponent.toNat < 2^64 := Nat.pow_lt_pow_right (by decide) h
  have hg : (BitVec.ofNat 64 (2 ^ s.exponent.toNat)).toNat = 2 ^ s.exponent.toNat := by
    rw [BitVec.toNat_ofNat, Nat.mod_eq_of_lt hp]
  refine ⟨⟨_, size_get h, hg⟩, ?_, ?_, ?_, log2_toNat s⟩
  · unfold mul shl
    rw [log2_toNat, if_pos h]
    exact ⟨_, rfl, by rw [BitVec.toNat_shiftLeft, Nat.shiftLeft_eq]⟩
  · unfold div shr
    rw [log2_toNat, if_pos h]
    exact ⟨_, rfl, by rw [BitVec.toNat_ushiftRight, Nat.shiftRight_eq_div_pow]⟩
  · unfold mod SizeP2.modmask
    rw [size_get h]
    refine ⟨_, rfl, ?_⟩
    have hm : (BitVec.ofNat 64 (2 ^ s.exponent.toNat) - 1#64).toNat = 2 ^ s.exponent.toNat - 1 := by
      rw [BitVec.toNat_sub, hg]
      have : 0 < 2 ^ s.exponent.toNat := Nat.pow_pos (by decide)
      simp; omega
    rw [BitVec.toNat_and, hm, Nat.and_two_pow_sub_one_eq_mod]

/-- C48, parity: only one is odd. -/
theorem C48_parity (s : SizeP2) (h : s.exponent.toNat < 64) : ∃ r, s.mod2 = .ok r ∧ r.toNat = 2 ^ s.exponent.toNat % 2 := by
  have hp : 2 ^ s.exponent.toNat < 2^64 := Nat.pow_lt_pow_right (by decide) h
  unfold SizeP2.mod2
  rw [size_get h]
  refine ⟨_, rfl, ?_⟩
  rw [BitVec.toNat_and, BitVec.toNat_ofNat, Nat.mod_eq_of_lt hp]
  exact Nat.and_two_pow_sub_one_eq_mod _ 1

/-- C48, larger exponents: everything is undefined. -/
theorem C48_undefined (s : SizeP2) (h : 64 ≤ s.exponent.toNat) (a : U64) :
    s.get.isUb = true ∧ s.mod2.isUb = true ∧ (mul a s).isUb = true ∧ (div a s).isUb = true ∧ (mod a s).isUb = true := by
  have hg : s.get = .ub "shift too wide" := by unfold SizeP2.get shl; rw [if_neg (by omega)]
  refine ⟨by rw [hg]; rfl, by unfold SizeP2.mod2; rw [hg]; rfl, ?_, ?_, by unfold mod SizeP2.modmask; rw [hg]; rfl⟩
  · unfold mul shl; rw [log2_toNat, if_neg (by omega)]; rfl
  · unfold div shr; rw [log2_toNat, if_neg (by omega)]; rfl

example : 64 ≤ (SizeP2.mk 64).exponent.toNat ∧ SizeP2.mod2 ⟨0⟩ = .ok 1#64 ∧ SizeP2.mod2 ⟨5⟩ = .ok 0#64 := ⟨by decide, rfl, rfl⟩

/-- `13 % 4`, `13 * 8`, `13 / 2`. -/
example : mod 13#64 ⟨2⟩ = .ok 1#64 ∧ mul 13#64 ⟨3⟩ = .ok 104#64 ∧ div 13#64 ⟨1⟩ = .ok 6#64 := ⟨rfl, rfl, rfl⟩

/-! ### C47 -/

theorem xorshift_inj {k : Nat} (hk : 0 < k) {x y : U64} (h : x ^^^ (x >>> k) = y ^^^ (y >>> k)) : x = y := by
  -- from the top bit down
  have key : ∀ (i : Nat), x.getLsbD (63 - i) = y.getLsbD (63 - i) := by
    intro i
    induction i using Nat.strongRecOn with
    | ind i ih =>
      have hb := congrArg (fun z : U64 => z.getLsbD (63 - i)) h
      simp only [BitVec.getLsbD_xor, BitVec.getLsbD_ushiftRight] at hb
      have hs : x.getLsbD (k + (63 - i)) = y.getLsbD (k + (63 - i)) := by
        by_cases hlt : k + (63 - i) < 64
        · by_cases h0 : i ≤ 63
          · have := ih (63 - (k + (63 - i))) (by omega)
            rwa [show 63 - (63 - (k + (63 - i))) = k + (63 - i) by omega] at this
          · by_cases hk0 : 63 - (k + (63 - i)) < i
            · have := ih (63 - (k + (63 - i))) hk0
              rwa [show 63 - (63 - (k + (63 - i))) = k + (63 - i) by omega] at this
            · omega
        · rw [BitVec.getLsbD_of_ge _ _ (by omega), BitVec.getLsbD_of_ge _ _ (by omega)]
      rw [hs] at hb
      revert hb
      cases x.getLsbD (63 - i) <;> cases y.getLsbD (63 - i) <;> cases y.getLsbD (k + (63 - i)) <;> simp
  apply BitVec.eq_of_getLsbD_eq
  intro i hi
  have := key (63 - i)
  rwa [show 63 - (63 - i) = i by omega] at this

theorem mul_inj {c d x y : U64} (hcd : c * d = 1#64) (h : x * c = y * c) : x = y := by
  have := congrArg (· * d) h
  simp only [BitVec.mul_assoc, hcd, BitVec.mul_one] at this
  exact this

/-- C47, hashing: the 64-bit integer hash is injective. -/
theorem C47_integer_hash_injective (x y : U64) : hash64 x = hash64 y ↔ x = y := by
  constructor
  · intro h
    unfold hash64 at h
    have h1 := xorshift_inj (by decide) h
    have h2 := mul_inj (c := 0x94d049bb133111eb#64) (d := 0x319642b2d24d8ec3#64) (by decide +kernel) h1
    have h3 := xorshift_inj (by decide) h2
    have h4 := mul_inj (c := 0xbf58476d1ce4e5b9#64) (d := 0x96de1b173f119089#64) (by decide +kernel) h3
    exact xorshift_inj (by decide) h4
  · rintro rfl; rfl

/-- Two neighbouring values, hashed. -/
example : hash64 1#64 ≠ hash64 2#64 ∧ hash64 0#64 = 0#64 := by decide +kernel

/-- The characters before the first NUL. -/
def beforeNul (s : List Byte) : List Byte := s.takeWhile (· ≠ 0#8)

theorem strncmp_eq : ∀ {a b : List Byte}, a.length = b.length →
    strncmp a.length a b = .ok (decide (beforeNul a = beforeNul b ∧ (0#8 ∈ a ↔ 0#8 ∈ b)))
  | [], [], _ => rfl
  | a :: as, b :: bs, h => by
    simp only [List.length_cons, Nat.add_right_cancel_iff] at h
    rw [List.length_cons, strncmp]
    by_cases hab : a = b
    · subst hab
      by_cases h0 : a = 0#8
      · subst h0; simp [beforeNul]
      · rw [if_neg (by simp), if_neg h0, strncmp_eq h]
        simp [beforeNul, h0, Ne.symm h0]
    · rw [if_pos hab]
      by_cases h0 : a = 0#8
      · have h1 : b ≠ 0#8 := fun e => hab (h0.trans e.symm)
        simp [beforeNul, h0, h1]
      · by_cases h1 : b = 0#8
        · simp [beforeNul, h0, h1]
        · simp [beforeNul, h0, h1, hab]

/-- C47, string views, exactly: two views of the same length are equal if and only if they agree up to
their first NUL byte; views of different lengths are never equal; comparing never reads out of bounds.
Missing: contents after a NUL. -/
theorem C47_view_equality_partial (a b : List Byte) :
    spanEq a b = .ok (decide (a.length = b.length ∧ beforeNul a = beforeNul b)) := by
  unfold spanEq
  by_cases h : a.length = b.length
  · rw [if_neg (by simp [h]), ← h, Nat.min_self, strncmp_eq h]
    congr 1
    rw [decide_eq_decide]
    constructor
    · rintro ⟨h1, -⟩; exact ⟨rfl, h1⟩
    · rintro ⟨-, h1⟩
      refine ⟨h1, ?_⟩
      have key : ∀ s : List Byte, 0#8 ∈ s ↔ (beforeNul s).length ≠ s.length := by
        intro s
        unfold beforeNul
        induction s with
        | nil => simp
        | cons c s ih =>
          by_cases hc : c = 0#8
          · simp [hc]
          · simp [hc, Ne.symm hc, ih]
      rw [key a, key b, h1, h]
  · rw [if_pos h]; simp [h]

/-- C47, string views without NUL bytes: equal exactly for equal byte sequences. -/
theorem C47_views_without_nul_partial (a b : List Byte) (ha : 0#8 ∉ a) (hb : 0#8 ∉ b) :
    spanEq a b = .ok (decide (a = b)) := by
  have key : ∀ s : List Byte, 0#8 ∉ s → beforeNul s = s := by
    intro s hs
    unfold beforeNul
    induction s with
    | nil => rfl
    | cons c s ih =>
      have h1 : c ≠ 0#8 := fun h => hs (by simp [h])
      have h2 : 0#8 ∉ s := fun h => hs (by simp [h])
      simp [h1]; simpa using ih h2
  rw [C47_view_equality_partial, key a ha, key b hb]
  congr 1
  rw [decide_eq_decide]
  exact ⟨fun h => h.2, fun h => ⟨by rw [h], h⟩⟩

/-- C47 fails for string views: `"a\0b"` and `"a\0c"`, three characters each, compare equal. -/
theorem C47_negation : spanEq [97, 0, 98] [97, 0, 99] = .ok true ∧ ([97, 0, 98] : List Byte) ≠ [97, 0, 99] :=
  ⟨rfl, by decide⟩

theorem strlen_eq {s t : List Byte} (hs : 0#8 ∉ s) : strlen (s ++ 0#8 :: t) = .ok s.length := by
  induction s with
  | nil => rfl
  | cons c s ih =>
    have h1 : c ≠ 0#8 := fun h => hs (by simp [h])
    have h2 : 0#8 ∉ s := fun h => hs (by simp [h])
    simp only [List.cons_append, strlen, h1, ih h2, if_false]
    rfl

/-- Comparing a view with a C string: equal exactly when the view has the characters of the string. -/
theorem C47_view_and_c_string_partial (a s t : List Byte) (hs : 0#8 ∉ s) :
    spanEqCstr a (s ++ 0#8 :: t) = .ok (decide (a = s)) := by
  unfold spanEqCstr
  rw [strlen_eq hs]
  simp only [Outcome.ok_bind]
  by_cases h : a.length = s.length
  · rw [if_neg (by simp [h]), ← h, Nat.min_self]
    induction a generalizing s with
    | nil =>
      have : s = [] := List.length_eq_zero_iff.mp h.symm
      subst this; rfl
    | cons c a ih =>
      cases s with
      | nil => cases h
      | cons d s =>
        simp only [List.length_cons, Nat.add_right_cancel_iff] at h
        have h1 : d ≠ 0#8 := fun e => hs (by simp [e])
        have h2 : 0#8 ∉ s := fun e => hs (by simp [e])
        rw [List.length_cons, List.cons_append, strncmp]
        by_cases hcd : c = d
        · subst hcd
          rw [if_neg (by simp), if_neg h1, ih s h2 h]
          simp
        · rw [if_pos hcd]; simp [hcd]
  · rw [if_pos h]
    have : a ≠ s := fun e => h (by rw [e])
    simp [this]

/-- `"ab" == "ab"`, `"ab" != "abc"`, and the hypotheses hold of them. -/
example : spanEqCstr [97, 98] [97, 98, 0, 7] = .ok true ∧ spanEqCstr [97, 98] [97, 98, 99, 0] = .ok false ∧
    spanEq [97, 98] [97, 98] = .ok true := ⟨rfl, rfl, rfl⟩

/-! ### C54 -/

/-- C54 fails: 4 to the power 2 comes out as 8. -/
theorem C54_negation : SizeP2.pow ⟨2⟩ 2#64 = .ok 8#64 ∧ (2 ^ 2) ^ 2 = 16 := ⟨rfl, rfl⟩

/-- C54, exactly: for an exponent `e` and power `n` with `1 ≤ e + n`, the result is 2^(e + n - 1) when
e + n ≤ 31 and then it is the power asked for exactly when `e = 1` or `n = 1`; it is 2^64 - 2^31 when
e + n = 32, and undefined beyond. -/
theorem C54_pow_partial (s : SizeP2) (n : U64) (h1 : 1 ≤ s.exponent.toNat + n.toNat)
    (h2 : s.exponent.toNat + n.toNat < 2^64) :
    (s.exponent.toNat + n.toNat ≤ 31 → ∃ p, s.pow n = .ok p ∧ p.toNat = 2 ^ (s.exponent.toNat + n.toNat - 1) ∧
      (p.toNat = (2 ^ s.exponent.toNat) ^ n.toNat ↔ s.exponent.toNat = 1 ∨ n.toNat = 1)) ∧
    (s.exponent.toNat + n.toNat = 32 → s.pow n = .ok (BitVec.ofNat 64 (2^64 - 2^31))) ∧
    (32 < s.exponent.toNat + n.toNat → (s.pow n).isUb = true) := by
  have hz : (s.exponent.zeroExtend 64).toNat = s.exponent.toNat := by
    have := s.exponent.isLt
    simp; omega
  have hk : (s.exponent.zeroExtend 64 + n - 1#64).toNat = s.exponent.toNat + n.toNat - 1 := by
    rw [BitVec.toNat_sub, BitVec.toNat_add, hz]; simp; omega
  unfold SizeP2.pow
  rw [hk]
  refine ⟨?_, ?_, ?_⟩
  · intro h
    rw [if_pos (by omega)]
    have hlt : 2 ^ (s.exponent.toNat + n.toNat - 1) < 2^64 := Nat.pow_lt_pow_right (by decide) (by omega)
    have hp : (BitVec.ofNat 64 (2 ^ (s.exponent.toNat + n.toNat - 1))).toNat = 2 ^ (s.exponent.toNat + n.toNat - 1) := by
      rw [BitVec.toNat_ofNat, Nat.mod_eq_of_lt hlt]
    refine ⟨_, rfl, hp, ?_⟩
    rw [hp, ← Nat.pow_mul, Nat.pow_right_inj (by decide)]
    generalize s.exponent.toNat = e at *
    generalize n.toNat = m at *
    constructor
    · intro h
      cases e with
      | zero => simp at h; omega
      | succ e =>
        cases m with
        | zero => simp at h; left; omega
        | succ m =>
          have : (e + 1) * (m + 1) = e * m + e + m + 1 := by
            rw [Nat.add_mul, Nat.mul_add]; omega
          have h0 : e * m = 0 := by omega
          rcases Nat.mul_eq_zero.mp h0 with h | h <;> omega
    · rintro (h | h)
      · subst h; omega
      · subst h; omega
  · intro h
    rw [if_neg (by omega), if_pos (by omega)]; rfl
  · intro h
    rw [if_neg (by omega), if_neg (by omega)]; rfl

end Ab.Util
