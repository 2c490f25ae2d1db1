import Verif.Proof.EdnReal2
/-! Error bounds. -/
namespace Ab.Edn

open Spec

/-- The factors of one rounding. -/
def lo : Rat := 1 - 1 / 2 ^ 53
def hi : Rat := 1 + 1 / 2 ^ 53

theorem lo_pos : 0 < lo := by decide +kernel
theorem hi_pos : 0 < hi := by decide +kernel
theorem lo_le : lo ≤ 1 := by decide +kernel
theorem le_hi : 1 ≤ hi := by decide +kernel

theorem lo_pow_pos (k : Nat) : 0 < lo ^ k := Rat.pow_pos lo_pos
theorem hi_pow_pos (k : Nat) : 0 < hi ^ k := Rat.pow_pos hi_pos

theorem rat_pow_add (a : Rat) (j : Nat) : ∀ k : Nat, a ^ (j + k) = a ^ j * a ^ k
  | 0 => by simp
  | k + 1 => by rw [← Nat.add_assoc, Rat.pow_succ, rat_pow_add a j k, Rat.pow_succ, Rat.mul_assoc]

theorem lo_pow_succ (k : Nat) : lo ^ (k + 1) ≤ lo ^ k := by
  rw [Rat.pow_succ]
  have := Rat.mul_le_mul_of_nonneg_left lo_le (Rat.le_of_lt (lo_pow_pos k))
  grind

theorem hi_pow_succ (k : Nat) : hi ^ k ≤ hi ^ (k + 1) := by
  rw [Rat.pow_succ]
  have := Rat.mul_le_mul_of_nonneg_left le_hi (Rat.le_of_lt (hi_pow_pos k))
  grind

theorem lo_pow_mono {j k : Nat} (h : j ≤ k) : lo ^ k ≤ lo ^ j := by
  induction h with
  | refl => exact Rat.le_refl
  | step h ih => exact Rat.le_trans (lo_pow_succ _) ih

theorem hi_pow_mono {j k : Nat} (h : j ≤ k) : hi ^ j ≤ hi ^ k := by
  induction h with
  | refl => exact Rat.le_refl
  | step h ih => exact Rat.le_trans ih (hi_pow_succ _)

/-- `y` is `x` after at most `k` roundings. -/
def Close (k : Nat) (x y : Rat) : Prop := 0 ≤ x ∧ x * lo ^ k ≤ y ∧ y ≤ x * hi ^ k

theorem Close.refl {x : Rat} (h : 0 ≤ x) : Close 0 x x := ⟨h, by simp, by simp⟩

theorem Close.mono {j k : Nat} {x y : Rat} (h : Close j x y) (hk : j ≤ k) : Close k x y :=
  ⟨h.1, Rat.le_trans (Rat.mul_le_mul_of_nonneg_left (lo_pow_mono hk) h.1) h.2.1,
    Rat.le_trans h.2.2 (Rat.mul_le_mul_of_nonneg_left (hi_pow_mono hk) h.1)⟩

theorem Close.nonneg {k : Nat} {x y : Rat} (h : Close k x y) : 0 ≤ y :=
  Rat.le_trans (Rat.mul_nonneg h.1 (Rat.le_of_lt (lo_pow_pos k))) h.2.1

theorem Close.add {k : Nat} {x y x' y' : Rat} (h : Close k x y) (h' : Close k x' y') : Close k (x + x') (y + y') := by
  obtain ⟨a, b, c⟩ := h
  obtain ⟨a', b', c'⟩ := h'
  refine ⟨by grind, ?_, ?_⟩
  · rw [Rat.add_mul]; grind
  · rw [Rat.add_mul]; grind

theorem Close.mul {j k : Nat} {x y x' y' : Rat} (h : Close j x y) (h' : Close k x' y') :
    Close (j + k) (x * x') (y * y') := by
  have hy := h.nonneg
  have hy' := h'.nonneg
  obtain ⟨a, b, c⟩ := h
  obtain ⟨a', b', c'⟩ := h'
  refine ⟨Rat.mul_nonneg a a', ?_, ?_⟩
  · rw [rat_pow_add]
    have h1 := Rat.mul_le_mul_of_nonneg_right b (Rat.mul_nonneg a' (Rat.le_of_lt (lo_pow_pos k)))
    have h2 := Rat.mul_le_mul_of_nonneg_left b' hy
    grind
  · rw [rat_pow_add]
    have h1 := Rat.mul_le_mul_of_nonneg_right c hy'
    have h2 := Rat.mul_le_mul_of_nonneg_left c' (Rat.mul_nonneg a (Rat.le_of_lt (hi_pow_pos j)))
    grind

theorem Close.div_const {k : Nat} {x y c : Rat} (h : Close k x y) (hc : 0 < c) : Close k (x / c) (y / c) := by
  have hi : 0 ≤ c⁻¹ := Rat.le_of_lt (Rat.inv_pos.mpr hc)
  have := h.mul (Close.refl hi)
  rw [Rat.div_def, Rat.div_def]
  exact this

theorem Close.round {k : Nat} {x y z : Rat} (h : Close k x y) (hz : Nearest y z) : Close (k + 1) x z := by
  have hy := h.nonneg
  have he := nearest_err hz
  rw [mag_of_nonneg hy] at he
  have h1 : Close 1 y z := by
    refine ⟨hy, ?_, ?_⟩
    · rw [show lo ^ 1 = 1 - 1 / 2 ^ 53 by decide +kernel]
      unfold mag at he; grind
    · rw [show hi ^ 1 = 1 + 1 / 2 ^ 53 by decide +kernel]
      unfold mag at he; grind
  obtain ⟨a, b, c⟩ := h
  obtain ⟨_, b', c'⟩ := h1
  refine ⟨a, ?_, ?_⟩
  · rw [rat_pow_add]
    have := Rat.mul_le_mul_of_nonneg_right b (Rat.le_of_lt (lo_pow_pos 1))
    grind
  · rw [rat_pow_add]
    have := Rat.mul_le_mul_of_nonneg_right c (Rat.le_of_lt (hi_pow_pos 1))
    grind

theorem digit_range {d : Byte} (h : Digit d) : 0 ≤ digitVal d ∧ digitVal d ≤ 9 := by
  have := realDigit_iff.mpr h
  simp only [realDigit, decide_eq_true_eq, BitVec.le_def] at this
  unfold digitVal
  simp at this
  omega

variable {A : Arith Rat}

theorem _root_.Ab.Spec.Rounds.isD (hA : Rounds A) {i : Int} (h : i.natAbs < 2^53) : IsDouble (A.ofInt i) := by
  rw [hA.ofInt i h]; exact isDouble_int h

theorem digitVal_nat {d : Byte} (h : Digit d) : (digitVal d : Rat) = ((d.toNat - 48 : Nat) : Rat) := by
  have := digit_range h
  have : digitVal d = ((d.toNat - 48 : Nat) : Int) := by unfold digitVal at *; omega
  rw [this, Rat.intCast_natCast]

theorem digitsVal_cons {d : Byte} (h : Digit d) (ds : List Byte) :
    ((digitsVal (d :: ds) : Nat) : Rat) = (digitVal d : Rat) * 10 ^ ds.length + (digitsVal ds : Rat) := by
  rw [digitVal_nat h]
  simp only [digitsVal, Rat.natCast_add, Rat.natCast_mul, Rat.natCast_pow]
  rfl

theorem _root_.Ab.Spec.Rounds.close (hA : Rounds A) {i : Int} (h : i.natAbs < 2^53) (h0 : 0 ≤ i) :
    Close 0 (i : Rat) (A.ofInt i) := by
  rw [hA.ofInt i h]
  exact Close.refl (by have := Rat.intCast_le_intCast.mpr h0; simpa using this)

/-- Appending digits to the integer part. -/
theorem whole_close (hA : Rounds A) : ∀ (ds : List Byte) (v w : Rat) (k : Nat), (∀ d ∈ ds, Digit d) → Close k v w →
    IsDouble w →
    Close (k + 2 * ds.length) (v * 10 ^ ds.length + digitsVal ds)
      (ds.foldl (fun v d => A.add (A.mul v (A.ofInt 10)) (A.ofInt (digitVal d))) w) ∧
    IsDouble (ds.foldl (fun v d => A.add (A.mul v (A.ofInt 10)) (A.ofInt (digitVal d))) w)
  | [], v, w, k, _, h, hd => by
    simp only [List.length_nil, List.foldl_nil, digitsVal]
    refine ⟨?_, hd⟩
    have : v * 10 ^ 0 + ((0 : Nat) : Rat) = v := by simp [Rat.add_zero]
    rw [this]; exact h
  | d :: ds, v, w, k, hds, h, hd => by
    have hdd := hds d (by simp)
    have ⟨hr1, hr2⟩ := digit_range hdd
    have n1 := hA.mul w (A.ofInt 10) hd (hA.isD (by decide))
    have n2 := hA.add _ (A.ofInt (digitVal d)) n1.1 (hA.isD (by omega))
    have o1 : A.ofInt 10 = 10 := hA.ofInt 10 (by decide)
    have o2 : A.ofInt (digitVal d) = digitVal d := hA.ofInt _ (by omega)
    have hdn : (0 : Rat) ≤ (digitVal d : Rat) := by
      have := Rat.intCast_le_intCast.mpr hr1
      simpa using this
    have c1 : Close k (v * 10) (w * A.ofInt 10) := by
      rw [o1]; exact h.mul (Close.refl (x := 10) (by decide))
    have c2 := c1.round n1
    have c3 := (c2.add ((hA.close (by omega) hr1).mono (Nat.zero_le _))).round n2
    have := whole_close hA ds _ _ _ (fun x hx => hds x (by simp [hx])) c3 n2.1
    simp only [List.foldl_cons, List.length_cons]
    refine ⟨?_, this.2⟩
    have e1 : k + 1 + 1 + 2 * ds.length = k + 2 * (ds.length + 1) := by omega
    have e2 : (v * 10 + (digitVal d : Rat)) * 10 ^ ds.length + (digitsVal ds : Rat) =
        v * 10 ^ (ds.length + 1) + (digitsVal (d :: ds) : Rat) := by
      rw [digitsVal_cons hdd, Rat.pow_succ]; grind
    rw [← e1, ← e2]; exact this.1

/-- Adding the digits after the point. -/
theorem frac_close (hA : Rounds A) : ∀ (ds : List Byte) (F f v w : Rat) (j k : Nat), (∀ d ∈ ds, Digit d) →
    Close j F f → IsDouble f → Close k v w → IsDouble w → j + 2 ≤ k →
    Close (k + ds.length) (v + F * (digitsVal ds / 10 ^ ds.length)) (fracIn A f w ds) ∧ IsDouble (fracIn A f w ds)
  | [], F, f, v, w, j, k, _, _, _, h, hd, _ => by
    simp only [List.length_nil, fracIn, digitsVal]
    refine ⟨?_, hd⟩
    have : v + F * (((0 : Nat) : Rat) / 10 ^ 0) = v := by simp; grind
    rw [this]; exact h
  | d :: ds, F, f, v, w, j, k, hds, hf, hfd, h, hd, hjk => by
    have hdd := hds d (by simp)
    have ⟨hr1, hr2⟩ := digit_range hdd
    have o1 : A.ofInt 10 = 10 := hA.ofInt 10 (by decide)
    have o2 : A.ofInt (digitVal d) = digitVal d := hA.ofInt _ (by omega)
    have n1 := hA.div f (A.ofInt 10) hfd (hA.isD (by decide)) (by rw [o1]; decide)
    have n2 := hA.mul (A.ofInt (digitVal d)) _ (hA.isD (by omega)) n1.1
    have n3 := hA.add w _ hd n2.1
    have hdn : (0 : Rat) ≤ (digitVal d : Rat) := by
      have := Rat.intCast_le_intCast.mpr hr1
      simpa using this
    have c1 : Close j (F / 10) (f / A.ofInt 10) := by
      rw [o1]; exact hf.div_const (by decide)
    have c2 := c1.round n1
    have c3 : Close (0 + (j + 1)) ((digitVal d : Rat) * (F / 10)) (A.ofInt (digitVal d) * A.div f (A.ofInt 10)) :=
      Close.mul (hA.close (by omega) hr1) c2
    have c4 := c3.round n2
    have c5 := (h.add (c4.mono (by omega))).round n3
    have := frac_close hA ds _ _ _ _ _ _ (fun x hx => hds x (by simp [hx])) c2 n1.1 c5 n3.1 (by omega)
    simp only [fracIn, List.length_cons]
    refine ⟨?_, this.2⟩
    have e1 : k + 1 + ds.length = k + (ds.length + 1) := by omega
    have e2 : v + (digitVal d : Rat) * (F / 10) + F / 10 * ((digitsVal ds : Rat) / 10 ^ ds.length) =
        v + F * ((digitsVal (d :: ds) : Rat) / 10 ^ (ds.length + 1)) := by
      rw [digitsVal_cons hdd, Rat.pow_succ]
      have hp : (0 : Rat) < 10 ^ ds.length := Rat.pow_pos (by decide)
      generalize (10 : Rat) ^ ds.length = P at *
      have hP : P ≠ 0 := by grind
      grind
    rw [← e1, ← e2]; exact this.1

theorem mul_neg_one (hA : Rounds A) {x : Rat} (h : IsDouble x) : A.mul x (A.ofInt (-1)) = -x := by
  have n := hA.mul x (A.ofInt (-1)) h (hA.isD (by decide))
  have o : A.ofInt (-1) = -1 := hA.ofInt (-1) (by decide)
  have : x * A.ofInt (-1) = -x := by rw [o]; grind
  rw [this] at n
  exact nearest_exact n (IsDouble.neg h)

theorem pow_close (hA : Rounds A) (e : Int) : Close 3 (10 ^ e) (A.pow10 e) := by
  have h := (hA.pow10 e).2
  have hp : (0 : Rat) < 10 ^ e := Rat.zpow_pos (by decide)
  refine ⟨Rat.le_of_lt hp, ?_, ?_⟩
  · have h1 : lo ^ 3 ≤ 1 - 1 / 2 ^ 52 := by decide +kernel
    have h2 := Rat.mul_le_mul_of_nonneg_left h1 (Rat.le_of_lt hp)
    unfold mag at h; grind
  · have h1 : 1 + 1 / 2 ^ 52 ≤ hi ^ 3 := by decide +kernel
    have h2 := Rat.mul_le_mul_of_nonneg_left h1 (Rat.le_of_lt hp)
    unfold mag at h; grind

theorem Close.factor {k : Nat} {x y : Rat} (h : Close k x y) : ∃ δ, lo ^ k ≤ δ ∧ δ ≤ hi ^ k ∧ y = x * δ := by
  obtain ⟨a, b, c⟩ := h
  by_cases h0 : x = 0
  · subst h0
    refine ⟨1, ?_, ?_, by grind⟩
    · have := lo_pow_mono (Nat.zero_le k); simpa using this
    · have := hi_pow_mono (Nat.zero_le k); simpa using this
  · have hx : 0 < x := by grind
    have hi : 0 < x⁻¹ := Rat.inv_pos.mpr hx
    refine ⟨y * x⁻¹, ?_, ?_, by grind⟩
    · have := Rat.mul_le_mul_of_nonneg_right b (Rat.le_of_lt hi)
      generalize lo ^ k = L at *
      have e : x * L * x⁻¹ = L := by grind
      rwa [e] at this
    · have := Rat.mul_le_mul_of_nonneg_right c (Rat.le_of_lt hi)
      generalize Edn.hi ^ k = L at *
      have e : x * L * x⁻¹ = L := by grind
      rwa [e] at this

/-- The error of reading a literal. -/
theorem realIn_error (hA : Rounds A) {ints frac : List Byte} (neg : Bool) (ex : Int) (hi' : Digits ints)
    (hf : ∀ d ∈ frac, Digit d) :
    IsDouble (realIn A neg ints frac ex) ∧
    ∃ δ, lo ^ (2 * ints.length + frac.length + 4) ≤ δ ∧
      δ ≤ hi ^ (2 * ints.length + frac.length + 4) ∧
      realIn A neg ints frac ex = denoted neg ints frac ex * δ := by
  have o0 : A.ofInt 0 = 0 := hA.ofInt 0 (by decide)
  have o1 : A.ofInt 1 = 1 := hA.ofInt 1 (by decide)
  have w := whole_close hA ints 0 (A.ofInt 0) 0 hi'.2 (hA.close (by decide) (by decide)) (hA.isD (by decide))
  have hlen : 1 ≤ ints.length := by
    rcases ints with _ | ⟨a, b⟩
    · exact absurd rfl hi'.1
    · simp
  have f := frac_close hA frac 1 (A.ofInt 1) _ _ 0 _ hf (hA.close (by decide) (by decide)) (hA.isD (by decide)) w.1 w.2
    (by omega)
  have p := pow_close hA ex
  have hpd := (hA.pow10 ex).1
  change Close _ _ (fracIn A (A.ofInt 1) (wholeIn A ints) frac) ∧ IsDouble (fracIn A (A.ofInt 1) (wholeIn A ints) frac) at f
  unfold realIn
  generalize fracIn A (A.ofInt 1) (wholeIn A ints) frac = x at f
  simp only
  have hval : (0 : Rat) * 10 ^ ints.length + (digitsVal ints : Rat) + 1 * ((digitsVal frac : Rat) / 10 ^ frac.length) =
      (digitsVal ints : Rat) + (digitsVal frac : Rat) / 10 ^ frac.length := by grind
  rw [hval] at f
  have e1 : 0 + 2 * ints.length + frac.length + 3 + 1 = 2 * ints.length + frac.length + 4 := by omega
  cases neg with
  | false =>
    have n := hA.mul x (A.pow10 ex) f.2 hpd
    have c := (f.1.mul p).round n
    refine ⟨n.1, ?_⟩
    obtain ⟨δ, d1, d2, d3⟩ := c.factor
    rw [e1] at d1 d2
    refine ⟨δ, d1, d2, ?_⟩
    unfold denoted
    simp only [Bool.false_eq_true, if_false]
    rw [d3]; grind
  | true =>
    simp only [if_true]
    rw [mul_neg_one hA f.2]
    have n := hA.mul (-x) (A.pow10 ex) (IsDouble.neg f.2) hpd
    have n' : Nearest (x * A.pow10 ex) (-A.mul (-x) (A.pow10 ex)) := by
      have := Nearest.neg n
      rwa [show -(-x * A.pow10 ex) = x * A.pow10 ex by grind] at this
    have c := (f.1.mul p).round n'
    refine ⟨n.1, ?_⟩
    obtain ⟨δ, d1, d2, d3⟩ := c.factor
    rw [e1] at d1 d2
    refine ⟨δ, d1, d2, ?_⟩
    unfold denoted
    simp only [if_true]
    grind

end Ab.Edn
