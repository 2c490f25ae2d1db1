import Verif.Spec.EdnDouble
import Verif.Props.EdnReal
/-! Property theorems C100: real literals with zeros and with large exponents. -/
namespace Ab.Edn

open Spec

variable {A : Arith U64}

theorem whole_zero (hA : Ieee A) (ds : List Byte) (h : ∀ d ∈ ds, d = 48#8) : ∀ v, IsZero v →
    IsZero (ds.foldl (fun v d => A.add (A.mul v (A.ofInt 10)) (A.ofInt (digitVal d))) v) := by
  induction ds with
  | nil => intro v hv; exact hv
  | cons d ds ih =>
    intro v hv
    refine ih (fun x hx => h x (by simp [hx])) _ ?_
    have hd : digitVal d = 0 := by rw [h d (by simp)]; rfl
    dsimp only
    rw [hd]
    exact hA.add_zero _ _ (hA.mul_zero _ _ hv (hA.ofInt_finite 10 (by decide))) hA.ofInt_zero

theorem frac_zero (hA : Ieee A) (ds : List Byte) (h : ∀ d ∈ ds, d = 48#8) : ∀ f v, IsFinite f → IsZero v →
    IsZero (fracIn A f v ds) := by
  induction ds with
  | nil => intro f v _ hv; exact hv
  | cons d ds ih =>
    intro f v hf hv
    have hd : digitVal d = 0 := by rw [h d (by simp)]; rfl
    rw [fracIn, hd]
    refine ih (fun x hx => h x (by simp [hx])) _ _ (hA.div_ten f hf) ?_
    exact hA.add_zero _ _ hv (hA.mul_zero _ _ hA.ofInt_zero (hA.div_ten f hf))

/-- The value before the exponent is applied. -/
theorem mantissa_zero (hA : Ieee A) (neg : Bool) {ints frac : List Byte} (hi : ∀ d ∈ ints, d = 48#8)
    (hf : ∀ d ∈ frac, d = 48#8) :
    IsZero (if neg then A.mul (fracIn A (A.ofInt 1) (wholeIn A ints) frac) (A.ofInt (-1))
      else fracIn A (A.ofInt 1) (wholeIn A ints) frac) := by
  have h0 := frac_zero hA frac hf (A.ofInt 1) (wholeIn A ints) (hA.ofInt_finite 1 (by decide))
    (whole_zero hA ints hi _ hA.ofInt_zero)
  split
  · exact hA.mul_zero _ _ h0 (hA.ofInt_finite (-1) (by decide))
  · exact h0

/-- **C100**, full statement: a real literal that denotes a number a double can hold is read as a number. -/
def C100_full : Prop :=
  ∀ (A : Arith U64), Ieee A → ∀ (t ints frac : List Byte) (neg : Bool) (ex : Int), RealText t neg ints frac ex →
    mag (denoted neg ints frac ex) < 2 ^ 1023 → ex.natAbs < 2^63 → ∃ v, parseReal A t = .ok v ∧ IsFinite v

/-- **C100**, zero: a literal all of whose digits are zero is read as zero when its exponent is at most 308. -/
theorem C100_zero_partial (hA : Ieee A) {t ints frac : List Byte} {neg : Bool} {ex : Int} (h : RealText t neg ints frac ex)
    (hi : ∀ d ∈ ints, d = 48#8) (hf : ∀ d ∈ frac, d = 48#8) (he : ex ≤ 308) (he' : ex.natAbs < 2^63) :
    ∃ v, parseReal A t = .ok v ∧ IsZero v := by
  refine ⟨_, by rw [parseReal_spec A h, if_pos he'], ?_⟩
  exact hA.mul_zero _ _ (mantissa_zero hA neg hi hf) (hA.pow10_finite ex he)

/-- **C100**, zero with a larger exponent: it is read as a NaN. -/
theorem C100_zero_is_nan (hA : Ieee A) {t ints frac : List Byte} {neg : Bool} {ex : Int} (h : RealText t neg ints frac ex)
    (hi : ∀ d ∈ ints, d = 48#8) (hf : ∀ d ∈ frac, d = 48#8) (he : 309 ≤ ex) (he' : ex.natAbs < 2^63) :
    ∃ v, parseReal A t = .ok v ∧ IsNaN v := by
  refine ⟨_, by rw [parseReal_spec A h, if_pos he'], ?_⟩
  exact hA.mul_zero_inf _ _ (mantissa_zero hA neg hi hf) (hA.pow10_inf ex he)

/-- **C100**, large exponents: no literal whose exponent is 309 or more is read as a number, however small the number it
denotes (as `0.0001e310`). -/
theorem C100_large_exponents (hA : Ieee A) {t ints frac : List Byte} {neg : Bool} {ex : Int}
    (h : RealText t neg ints frac ex) (he : 309 ≤ ex) (he' : ex.natAbs < 2^63) :
    ∃ v, parseReal A t = .ok v ∧ (IsInf v ∨ IsNaN v) := by
  refine ⟨_, by rw [parseReal_spec A h, if_pos he'], ?_⟩
  exact hA.mul_inf _ _ (hA.pow10_inf ex he)

theorem _root_.Ab.Spec.AtMost.mono {i j : Nat} {v : BitVec 64} (h : AtMost i v) (hij : i ≤ j) : AtMost j v := by
  unfold AtMost at *
  exact Nat.le_trans h (Nat.mul_le_mul_right (2^52) (by omega))

theorem _root_.Ab.Spec.AtMost.finite {k : Nat} {v : BitVec 64} (h : AtMost k v) (hk : k ≤ 1023) : IsFinite v := by
  unfold AtMost at h
  unfold IsFinite
  have := Nat.mul_le_mul_right (2^52) (show 1023 + k ≤ 2046 by omega)
  have := v.isLt
  omega

theorem digit_small {d : Byte} (h : Digit d) : (digitVal d).natAbs ≤ 2^4 := by
  revert h; unfold Digit; revert d; decide +kernel

theorem whole_size (hA : Ieee A) (ds : List Byte) (h : ∀ d ∈ ds, Digit d) : ∀ v k, 4 ≤ k → AtMost k v →
    k + 5 * ds.length ≤ 1023 →
    AtMost (k + 5 * ds.length) (ds.foldl (fun v d => A.add (A.mul v (A.ofInt 10)) (A.ofInt (digitVal d))) v) := by
  induction ds with
  | nil => intro v k _ hv _; exact hv
  | cons d ds ih =>
    intro v k hk hv hb
    rw [List.length_cons] at hb ⊢
    have h1 : AtMost (k + 4) (A.mul v (A.ofInt 10)) :=
      hA.mul_size _ _ _ _ hv (hA.ofInt_size 10 4 (by decide) (by decide)) (by omega)
    have h2 : AtMost (k + 4) (A.ofInt (digitVal d)) :=
      hA.ofInt_size _ _ (Nat.le_trans (digit_small (h d (by simp))) (Nat.pow_le_pow_right (by decide) (by omega))) (by omega)
    have := ih (fun x hx => h x (by simp [hx])) _ (k + 5) (by omega) (hA.add_size _ _ _ h1 h2 (by omega)) (by omega)
    rw [show k + 5 * (ds.length + 1) = k + 5 + 5 * ds.length by omega]
    exact this

theorem frac_size (hA : Ieee A) (ds : List Byte) (h : ∀ d ∈ ds, Digit d) : ∀ f v k, 4 ≤ k → AtMost 0 f → AtMost k v →
    k + ds.length ≤ 1023 → AtMost (k + ds.length) (fracIn A f v ds) := by
  induction ds with
  | nil => intro f v k _ _ hv _; exact hv
  | cons d ds ih =>
    intro f v k hk hf hv hb
    rw [List.length_cons] at hb ⊢
    rw [fracIn]
    have hf' := hA.div_ten_size f 0 hf (by decide)
    have h2 : AtMost k (A.mul (A.ofInt (digitVal d)) (A.div f (A.ofInt 10))) :=
      (hA.mul_size _ _ 4 0 (hA.ofInt_size _ _ (digit_small (h d (by simp))) (by decide)) hf' (by decide)).mono (by omega)
    have := ih (fun x hx => h x (by simp [hx])) _ _ (k + 1) (by omega) hf' (hA.add_size _ _ _ hv h2 (by omega)) (by omega)
    rw [show k + (ds.length + 1) = k + 1 + ds.length by omega]
    exact this

/-- **C100**, moderate sizes: a literal of any digits is read as a number if five bits for each digit before the point, one for
each after it, and those of its power of ten are together at most 1019 (any literal of 17 digits, with an exponent up to 280). -/
theorem C100_moderate_partial (hA : Ieee A) {t ints frac : List Byte} {neg : Bool} {ex : Int} (h : RealText t neg ints frac ex)
    (k : Nat) (hk : 10 ^ ex.toNat ≤ 2^k) (hb : 5 * ints.length + frac.length + k ≤ 1019) (he' : ex.natAbs < 2^63) :
    ∃ v, parseReal A t = .ok v ∧ IsFinite v := by
  obtain ⟨hd, hf⟩ := realText_digits h
  refine ⟨_, by rw [parseReal_spec A h, if_pos he'], ?_⟩
  have h1 := whole_size hA ints hd.2 _ 4 (by decide) (hA.ofInt_size 0 4 (by decide) (by decide)) (by omega)
  have h2 := frac_size hA frac hf (A.ofInt 1) _ _ (by omega) (hA.ofInt_size 1 0 (by decide) (by decide)) h1 (by omega)
  have hp := hA.pow10_size ex k hk (by omega)
  have hfin : 4 + 5 * ints.length + frac.length + k ≤ 1023 := by omega
  refine AtMost.finite (hA.mul_size _ _ (4 + 5 * ints.length + frac.length) k ?_ hp hfin) hfin
  split
  · exact hA.mul_size _ _ (4 + 5 * ints.length + frac.length) 0 h2 (hA.ofInt_size (-1) 0 (by decide) (by decide)) (by omega)
  · exact h2

/-- Arithmetic with the special values right (and all other numbers taken for 1). -/
def toyArith : Arith U64 where
  ofInt i := if i = 0 then 0#64 else 0x3ff0000000000000#64
  add a b := if IsZero a ∧ IsZero b then 0#64 else 0x3ff0000000000000#64
  mul a b := if IsInf b then (if IsZero a then 0x7ff8000000000000#64 else 0x7ff0000000000000#64)
    else if IsZero a then 0#64 else 0x3ff0000000000000#64
  div _ _ := 0x3ff0000000000000#64
  pow10 e := if e ≤ 308 then 0x3ff0000000000000#64 else 0x7ff0000000000000#64

instance (k v) : Decidable (AtMost k v) := by unfold AtMost; infer_instance

theorem toy_one {v : BitVec 64} (k : Nat) (h : AtMost 0 v) : AtMost k v := h.mono (Nat.zero_le _)

theorem toy_ieee : Ieee toyArith where
  ofInt_zero := by decide
  ofInt_finite i _ := by unfold toyArith; dsimp only; split <;> decide
  add_zero a b ha hb := by unfold toyArith; dsimp only; rw [if_pos ⟨ha, hb⟩]; decide
  mul_zero a b ha hb := by
    unfold toyArith; dsimp only
    rw [if_neg, if_pos ha]
    · decide
    · unfold IsFinite at hb; unfold IsInf
      have := b.isLt
      omega
  mul_inf a b hb := by
    unfold toyArith; dsimp only; rw [if_pos hb]
    split
    · exact Or.inr (by decide)
    · exact Or.inl (by decide)
  mul_zero_inf a b ha hb := by unfold toyArith; dsimp only; rw [if_pos hb, if_pos ha]; decide
  div_ten _ _ := show IsFinite 0x3ff0000000000000#64 by decide
  pow10_finite e he := by unfold toyArith; dsimp only; rw [if_pos he]; decide
  pow10_inf e he := by unfold toyArith; dsimp only; rw [if_neg (by omega)]; decide
  ofInt_size i k _ _ := by unfold toyArith; dsimp only; split <;> exact toy_one k (by decide)
  add_size a b k _ _ _ := by unfold toyArith; dsimp only; split <;> exact toy_one _ (by decide)
  mul_size a b i j _ hb hij := by
    unfold toyArith; dsimp only
    rw [if_neg]
    · split <;> exact toy_one _ (by decide)
    · have := hb.finite (by omega)
      unfold IsFinite at this; unfold IsInf
      have := b.isLt
      omega
  div_ten_size a k _ _ := toy_one _ (show AtMost 0 0x3ff0000000000000#64 by decide)
  pow10_size e k h hk := by
    unfold toyArith; dsimp only
    rw [if_pos]
    · exact toy_one _ (by decide)
    · apply Decidable.byContradiction
      intro h0
      have hc : ¬ 10 ^ 309 ≤ 2 ^ 1023 := by decide +kernel
      have h1 : 10 ^ 309 ≤ 10 ^ e.toNat := Nat.pow_le_pow_right (by decide) (by omega)
      have h2 : 2 ^ k ≤ 2 ^ 1023 := Nat.pow_le_pow_right (by decide) hk
      exact hc (Nat.le_trans h1 (Nat.le_trans h h2))

local instance (b : Byte) : Decidable (Digit b) := by unfold Digit; infer_instance

theorem realText_0e309 : RealText (ascii "0e309") false [48#8] [] 309 :=
  ⟨[], [], ascii "e309", by decide, Or.inl rfl, by decide, ⟨by decide, by decide⟩, Or.inl ⟨rfl, rfl⟩,
    Or.inr ⟨101#8, ascii "309", by decide, by decide, .plain (by decide) (by decide)⟩, by decide⟩

/-- **C100**, the full statement is false of the code: `0e309` is read as a NaN. -/
theorem C100_negation : ¬ C100_full := by
  intro h
  obtain ⟨v, h1, h2⟩ := h toyArith toy_ieee _ _ _ _ _ realText_0e309 (by decide +kernel) (by decide)
  obtain ⟨w, h3, h4⟩ := C100_zero_is_nan toy_ieee realText_0e309 (by decide) (by decide) (by decide) (by decide)
  rw [h1] at h3
  injection h3 with h3
  subst h3
  exact h2 h4.1

example : 10 ^ (280 : Int).toNat ≤ 2^931 ∧ 5 * 17 + 0 + 931 ≤ 1019 := by decide +kernel

example : RealText (ascii "0.7") false [48#8] [55#8] 0 ∧ Ieee toyArith := ⟨realText_seven, toy_ieee⟩

end Ab.Edn
