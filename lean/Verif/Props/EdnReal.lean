import Verif.Proof.EdnReal3
import Verif.Props.EdnLexer
/-! C85: real literals. -/
namespace Ab.Edn

open Spec

/-! ### The number read with exact arithmetic -/

theorem whole_exact : ∀ (ds : List Byte) (v : Rat), (∀ d ∈ ds, Digit d) →
    ds.foldl (fun v d => exactArith.add (exactArith.mul v (exactArith.ofInt 10)) (exactArith.ofInt (digitVal d))) v =
      v * 10 ^ ds.length + digitsVal ds
  | [], v, _ => by
    simp only [List.length_nil, List.foldl_nil, digitsVal]
    have : v * 10 ^ 0 + ((0 : Nat) : Rat) = v := by simp [Rat.add_zero]
    exact this.symm
  | d :: ds, v, h => by
    have hdd := h d (by simp)
    simp only [List.foldl_cons, List.length_cons]
    rw [whole_exact ds _ (fun x hx => h x (by simp [hx])), digitsVal_cons hdd, Rat.pow_succ]
    show (v * ((10 : Int) : Rat) + (digitVal d : Rat)) * _ + _ = _
    rw [show (((10 : Int)) : Rat) = 10 by decide +kernel]
    grind

theorem frac_exact : ∀ (ds : List Byte) (f v : Rat), (∀ d ∈ ds, Digit d) →
    fracIn exactArith f v ds = v + f * (digitsVal ds / 10 ^ ds.length)
  | [], f, v, _ => by
    simp only [List.length_nil, fracIn, digitsVal]
    have : v + f * (((0 : Nat) : Rat) / 10 ^ 0) = v := by simp; grind
    exact this.symm
  | d :: ds, f, v, h => by
    have hdd := h d (by simp)
    simp only [fracIn, List.length_cons]
    rw [frac_exact ds _ _ (fun x hx => h x (by simp [hx])), digitsVal_cons hdd, Rat.pow_succ]
    show v + (digitVal d : Rat) * (f / ((10 : Int) : Rat)) + f / ((10 : Int) : Rat) * _ = _
    rw [show (((10 : Int)) : Rat) = 10 by decide +kernel]
    have hp : (0 : Rat) < 10 ^ ds.length := Rat.pow_pos (by decide)
    generalize (10 : Rat) ^ ds.length = P at *
    have hP : P ≠ 0 := by grind
    grind

theorem realText_digits {t ints frac : List Byte} {neg : Bool} {ex : Int} (h : RealText t neg ints frac ex) :
    Digits ints ∧ ∀ d ∈ frac, Digit d := by
  obtain ⟨sg, pt, et, _, _, _, hd, hp, _⟩ := h
  refine ⟨hd, ?_⟩
  rcases hp with ⟨_, rfl⟩ | ⟨_, hf⟩
  · intro d hd; cases hd
  · exact hf.2

local instance (b : Byte) : Decidable (Digit b) := by unfold Digit; infer_instance

theorem realText_seven : RealText (ascii "0.7") false [48#8] [55#8] 0 :=
  ⟨[], ascii ".7", [], by decide, Or.inl rfl, by decide, ⟨by decide, by decide⟩, Or.inr ⟨by decide, by decide, by decide⟩,
    Or.inl ⟨rfl, rfl⟩, by decide⟩

/-- C85, the method: with arithmetic that never rounds, every real literal whose exponent is in range is read
as the number it denotes. -/
theorem C85_exact_arithmetic_partial {t ints frac : List Byte} {neg : Bool} {ex : Int}
    (h : RealText t neg ints frac ex) (he : ex.natAbs < 2^63) :
    parseReal exactArith t = .ok (denoted neg ints frac ex) := by
  obtain ⟨hd, hf⟩ := realText_digits h
  rw [parseReal_spec exactArith h, if_pos he]
  unfold realIn wholeIn denoted
  rw [whole_exact ints _ hd.2, frac_exact frac _ _ hf]
  congr 1
  show (if neg = true then _ * ((-1 : Int) : Rat) else _) * (10 : Rat) ^ ex = _
  rw [show exactArith.ofInt 0 = 0 from rfl, show exactArith.ofInt 1 = 1 from by decide +kernel,
    show (((-1 : Int)) : Rat) = -1 by decide +kernel]
  cases neg <;> simp only [if_true, Bool.false_eq_true, if_false] <;> grind

example : parseReal exactArith (ascii "-12.5e-1") = .ok (-5/4) := by decide +kernel

/-- C85, undefined behaviour exactly: a literal whose exponent does not fit 64 bits with sign overflows the
exponent's counter, whatever the arithmetic; every other literal gives a value and none ends the process. -/
theorem C85_exponent_overflow {R} (A : Arith R) {t ints frac : List Byte} {neg : Bool} {ex : Int}
    (h : RealText t neg ints frac ex) :
    ((parseReal A t).isUb = true ↔ 2^63 ≤ ex.natAbs) ∧ ((∃ v, parseReal A t = .ok v) ↔ ex.natAbs < 2^63) := by
  rw [parseReal_spec A h]
  split
  · rename_i hlt
    exact ⟨by simp [Outcome.isUb]; omega, by simp; omega⟩
  · rename_i hlt
    exact ⟨by simp [Outcome.isUb]; omega, by simp; omega⟩

example : (parseReal exactArith (ascii "0e9223372036854775808")).isUb = true := by decide +kernel

/-! ### Rounding -/

variable {A : Arith Rat}

/-- Only one double is within half a unit. -/
theorem near_unique {x y : Rat} (h : Nearest x y) (k c : Int) (hx : 2 ^ 52 * 2 ^ k + 2 ^ k ≤ x)
    (hc : mag (x - c * 2 ^ k) < 2 ^ k / 2) (hd : IsDouble (c * 2 ^ k)) : y = c * 2 ^ k := by
  have hp := two_zpow_pos k
  have h1 := h.2 _ hd
  have hm : 2 ^ 52 * 2 ^ k ≤ mag y := by
    have hy : y ≤ mag y := by unfold mag; grind
    unfold mag at h1 hc; grind
  obtain ⟨n, rfl⟩ := double_grid h.1 k hm
  have key : ∀ a b : Int, a < b → (a : Rat) * 2 ^ k + 2 ^ k ≤ (b : Rat) * 2 ^ k := by
    intro a b hab
    have := Rat.mul_le_mul_of_nonneg_right (Rat.intCast_le_intCast.mpr (show a + 1 ≤ b by omega)) (Rat.le_of_lt hp)
    rw [Rat.intCast_add] at this
    simp at this; grind
  rcases Int.lt_trichotomy n c with hl | he | hg
  · have := key n c hl
    unfold mag at h1 hc; grind
  · rw [he]
  · have := key c n hg
    unfold mag at h1 hc; grind

/-- What "0.7" is read as. -/
theorem seven_value (hA : Rounds A) :
    realIn A false [48#8] [55#8] 0 = ((6305039478318695 : Int) : Rat) * 2 ^ (-53 : Int) := by
  have d0 : IsDouble 0 := ⟨0, 0, by decide, by simp⟩
  have d1 : IsDouble 1 := ⟨1, 0, by decide, by decide +kernel⟩
  have o0 : A.ofInt 0 = 0 := hA.ofInt 0 (by decide)
  have o1 : A.ofInt 1 = 1 := hA.ofInt 1 (by decide)
  have o7 : A.ofInt 7 = 7 := hA.ofInt 7 (by decide)
  have o10 : A.ofInt 10 = 10 := hA.ofInt 10 (by decide)
  have d10 : IsDouble 10 := ⟨10, 0, by decide, by decide +kernel⟩
  have d7 : IsDouble 7 := ⟨7, 0, by decide, by decide +kernel⟩
  have v48 : digitVal 48#8 = 0 := by decide
  have v55 : digitVal 55#8 = 7 := by decide
  unfold realIn wholeIn
  simp only [List.foldl_cons, List.foldl_nil, fracIn, v48, v55, o0, o1, o7, o10, hA.pow10_zero, Bool.false_eq_true,
    if_false]
  have e1 : A.mul 0 10 = 0 := by
    have := hA.mul 0 10 d0 d10
    rw [show (0 : Rat) * 10 = 0 by decide +kernel] at this
    exact nearest_exact this d0
  have e2 : A.add 0 0 = 0 := by
    have := hA.add 0 0 d0 d0
    rw [show (0 : Rat) + 0 = 0 by decide +kernel] at this
    exact nearest_exact this d0
  have e3 : A.div 1 10 = ((7205759403792794 : Int) : Rat) * 2 ^ (-56 : Int) :=
    near_unique (hA.div 1 10 d1 d10 (by decide)) (-56) 7205759403792794 (by decide +kernel) (by decide +kernel)
      ⟨_, _, by decide, rfl⟩
  have d3 : IsDouble (((7205759403792794 : Int) : Rat) * 2 ^ (-56 : Int)) := ⟨_, _, by decide, rfl⟩
  have d4 : IsDouble (((6305039478318695 : Int) : Rat) * 2 ^ (-53 : Int)) := ⟨_, _, by decide, rfl⟩
  have e4 : A.mul 7 (((7205759403792794 : Int) : Rat) * 2 ^ (-56 : Int)) =
      ((6305039478318695 : Int) : Rat) * 2 ^ (-53 : Int) :=
    near_unique (hA.mul 7 _ d7 d3) (-53) 6305039478318695 (by decide +kernel) (by decide +kernel) d4
  have e5 : A.add 0 (((6305039478318695 : Int) : Rat) * 2 ^ (-53 : Int)) =
      ((6305039478318695 : Int) : Rat) * 2 ^ (-53 : Int) := by
    have := hA.add 0 _ d0 d4
    rw [show (0 : Rat) + ((6305039478318695 : Int) : Rat) * 2 ^ (-53 : Int) =
      ((6305039478318695 : Int) : Rat) * 2 ^ (-53 : Int) by decide +kernel] at this
    exact nearest_exact this d4
  rw [e1, e2, e3, e4, e5]
  have := hA.mul _ 1 d4 d1
  rw [Rat.mul_one] at this
  exact nearest_exact this d4

/-- C85 is false of the code: however ties are rounded, "0.7" is read as the double 0.7000000000000001, which
is not the one nearest to 7/10. -/
theorem C85_negation :
    RealText (ascii "0.7") false [48#8] [55#8] 0 ∧ denoted false [48#8] [55#8] 0 = 7/10 ∧
    ∀ A : Arith Rat, Rounds A → ∃ v, parseReal A (ascii "0.7") = .ok v ∧ ¬ Nearest (7/10) v := by
  refine ⟨realText_seven, by decide +kernel, ?_⟩
  intro A hA
  refine ⟨_, by rw [parseReal_spec A realText_seven, if_pos (by decide)], ?_⟩
  rw [seven_value hA]
  intro h
  have := h.2 (((6305039478318694 : Int) : Rat) * 2 ^ (-53 : Int)) ⟨_, _, by decide, rfl⟩
  revert this; decide +kernel

/-- There is arithmetic that rounds as assumed. -/
example : ∃ A : Arith Rat, Rounds A := exists_rounds

/-- C85, the error: every real literal with an exponent in range is read as a double, whose error is that of at
most `2 * n + m + 4` roundings to nearest, where `n` and `m` are the numbers of digits before and after the
point; the bound is relative, so the sign is right and zero is read as zero. -/
theorem C85_error_bound_partial (hA : Rounds A) {t ints frac : List Byte} {neg : Bool} {ex : Int}
    (h : RealText t neg ints frac ex) (he : ex.natAbs < 2^63) :
    ∃ v, parseReal A t = .ok v ∧ IsDouble v ∧
      ∃ δ : Rat, (1 - 1 / 2^53 : Rat) ^ (2 * ints.length + frac.length + 4) ≤ δ ∧
        δ ≤ (1 + 1 / 2^53 : Rat) ^ (2 * ints.length + frac.length + 4) ∧ v = denoted neg ints frac ex * δ := by
  obtain ⟨hd, hf⟩ := realText_digits h
  obtain ⟨h1, h2⟩ := realIn_error hA neg ex hd hf
  exact ⟨_, by rw [parseReal_spec A h, if_pos he], h1, h2⟩

theorem whole_small (hA : Rounds A) : ∀ (ds : List Byte) (n : Nat), (∀ d ∈ ds, Digit d) →
    n * 10 ^ ds.length + digitsVal ds < 2^53 →
    ds.foldl (fun v d => A.add (A.mul v (A.ofInt 10)) (A.ofInt (digitVal d))) (n : Rat) =
      ((n * 10 ^ ds.length + digitsVal ds : Nat) : Rat)
  | [], n, _, _ => by simp [digitsVal]
  | d :: ds, n, h, hlt => by
    have hdd := h d (by simp)
    have ⟨hr1, hr2⟩ := digit_range hdd
    have hdn : digitVal d = ((d.toNat - 48 : Nat) : Int) := by unfold digitVal at *; omega
    simp only [digitsVal, List.length_cons, Nat.pow_succ] at hlt
    have hpos : 1 ≤ 10 ^ ds.length := Nat.one_le_pow _ _ (by decide)
    have e : n * (10 ^ ds.length * 10) + ((d.toNat - 48) * 10 ^ ds.length + digitsVal ds) =
        (n * 10 + (d.toNat - 48)) * 10 ^ ds.length + digitsVal ds := by
      rw [Nat.add_mul, Nat.mul_comm (10 ^ ds.length) 10, ← Nat.mul_assoc, Nat.add_assoc]
    rw [e] at hlt
    have hsm : n * 10 + (d.toNat - 48) < 2^53 := by
      have := Nat.le_mul_of_pos_right (n * 10 + (d.toNat - 48)) hpos
      omega
    have nat_d : ∀ k : Nat, k < 2^53 → IsDouble ((k : Nat) : Rat) := by
      intro k hk
      have := isDouble_int (i := (k : Int)) (by omega)
      rwa [Rat.intCast_natCast] at this
    have e1 : A.mul (n : Rat) (A.ofInt 10) = ((n * 10 : Nat) : Rat) := by
      have := hA.mul (n : Rat) (A.ofInt 10) (nat_d n (by omega)) (hA.isD (by decide))
      rw [hA.ofInt 10 (by decide), show (n : Rat) * ((10 : Int) : Rat) = ((n * 10 : Nat) : Rat) by
        rw [Rat.natCast_mul]; rfl] at this
      rw [hA.ofInt 10 (by decide)]
      exact nearest_exact this (nat_d _ (by omega))
    have e2 : A.add ((n * 10 : Nat) : Rat) (A.ofInt (digitVal d)) = ((n * 10 + (d.toNat - 48) : Nat) : Rat) := by
      have := hA.add ((n * 10 : Nat) : Rat) (A.ofInt (digitVal d)) (nat_d _ (by omega)) (hA.isD (by omega))
      rw [hA.ofInt (digitVal d) (by omega), digitVal_nat hdd, ← Rat.natCast_add] at this
      rw [hA.ofInt (digitVal d) (by omega), digitVal_nat hdd]
      exact nearest_exact this (nat_d _ (by omega))
    simp only [List.foldl_cons, List.length_cons, digitsVal, Nat.pow_succ]
    rw [e1, e2, whole_small hA ds _ (fun x hx => h x (by simp [hx])) hlt, e]

theorem frac_zeros (hA : Rounds A) : ∀ (ds : List Byte) (f v : Rat), (∀ d ∈ ds, d = 48#8) → IsDouble f → IsDouble v →
    fracIn A f v ds = v
  | [], f, v, _, _, _ => rfl
  | d :: ds, f, v, h, hf, hv => by
    have hd := h d (by simp)
    subst hd
    have v48 : digitVal 48#8 = 0 := by decide
    have o0 : A.ofInt 0 = 0 := hA.ofInt 0 (by decide)
    have o10 : A.ofInt 10 = 10 := hA.ofInt 10 (by decide)
    have d0 : IsDouble 0 := ⟨0, 0, by decide, by simp⟩
    have n1 := hA.div f (A.ofInt 10) hf (hA.isD (by decide)) (by rw [o10]; decide)
    have n2 := hA.mul 0 _ d0 n1.1
    rw [Rat.zero_mul] at n2
    have e2 := nearest_exact n2 d0
    have n3 := hA.add v 0 hv d0
    rw [Rat.add_zero] at n3
    simp only [fracIn, v48, o0]
    rw [e2, nearest_exact n3 hv]
    exact frac_zeros hA ds _ v (fun x hx => h x (by simp [hx])) n1.1 hv

/-- C85 for whole numbers below 2^53 (`12.0`, `-3.00`, `7e0`): read exactly, hence as the nearest double. -/
theorem C85_whole_numbers_partial (hA : Rounds A) {t ints frac : List Byte} {neg : Bool}
    (h : RealText t neg ints frac 0) (hsm : digitsVal ints < 2^53) (hz : ∀ d ∈ frac, d = 48#8) :
    parseReal A t = .ok (denoted neg ints frac 0) ∧ Nearest (denoted neg ints frac 0) (denoted neg ints frac 0) ∧
      denoted neg ints frac 0 = if neg then -(digitsVal ints : Rat) else (digitsVal ints : Rat) := by
  obtain ⟨hd, hf⟩ := realText_digits h
  have o0 : A.ofInt 0 = ((0 : Nat) : Rat) := hA.ofInt 0 (by decide)
  have d1 : IsDouble 1 := ⟨1, 0, by decide, by decide +kernel⟩
  have w := whole_small hA ints 0 hd.2 (by omega)
  rw [← o0, Nat.zero_mul, Nat.zero_add] at w
  have hw : IsDouble ((digitsVal ints : Nat) : Rat) := by
    have := isDouble_int (i := (digitsVal ints : Int)) (by omega)
    rwa [Rat.intCast_natCast] at this
  have hfz : ∀ ds : List Byte, (∀ d ∈ ds, d = 48#8) → digitsVal ds = 0 := by
    intro ds
    induction ds with
    | nil => intro _; rfl
    | cons d ds ih =>
      intro h
      have := h d (by simp); subst this
      simp only [digitsVal]
      rw [ih (fun x hx => h x (by simp [hx]))]
      simp
  have hden : denoted neg ints frac 0 = if neg then -(digitsVal ints : Rat) else (digitsVal ints : Rat) := by
    unfold denoted
    rw [hfz frac hz]
    have : (10 : Rat) ^ (0 : Int) = 1 := by decide +kernel
    rw [this]
    have hz : ((0 : Nat) : Rat) / 10 ^ frac.length = 0 := by
      show (0 : Rat) / _ = 0
      grind
    rw [hz]
    cases neg <;> simp <;> grind
  have hdd : IsDouble (denoted neg ints frac 0) := by
    rw [hden]; split
    · exact IsDouble.neg hw
    · exact hw
  refine ⟨?_, ⟨hdd, fun z _ => ?_⟩, hden⟩
  · rw [parseReal_spec A h, if_pos (by decide)]
    unfold realIn wholeIn
    rw [w, frac_zeros hA frac _ _ hz (hA.isD (by decide)) hw, hA.pow10_zero]
    simp only
    rw [hden]
    congr 1
    have last : ∀ x : Rat, IsDouble x → A.mul x 1 = x := by
      intro x hx
      have n := hA.mul x 1 hx d1
      rw [Rat.mul_one] at n
      exact nearest_exact n hx
    cases neg with
    | false => simp only [Bool.false_eq_true, if_false]; exact last _ hw
    | true =>
      simp only [if_true]
      rw [mul_neg_one hA hw]; exact last _ (IsDouble.neg hw)
  · have : denoted neg ints frac 0 - denoted neg ints frac 0 = 0 := by grind
    rw [this, show mag 0 = 0 by decide +kernel]
    exact mag_nonneg _

example : RealText (ascii "-12.00") true (ascii "12") (ascii "00") 0 ∧ digitsVal (ascii "12") < 2^53 ∧
    ∀ d ∈ ascii "00", d = 48#8 :=
  ⟨⟨ascii "-", ascii ".00", [], by decide, Or.inr (Or.inr rfl), by decide, ⟨by decide, by decide⟩,
    Or.inr ⟨by decide, by decide, by decide⟩, Or.inl ⟨rfl, rfl⟩, by decide⟩, by decide, by decide⟩

/-- C85, from the text to the tokens: the value of every real token is what `parseReal` gives for its text, and
that text is a real literal with its exponent in range. -/
theorem C85_tokens (L : Lib) {s : List Byte} {ts : List Token} {l : Lex} (h : lex L s = .ok (ts, l))
    {k : U64} {t : Token} (ht : t ∈ ts) (hk : t.kind = .real k) :
    ∃ neg ints frac ex, RealText t.text neg ints frac ex ∧ ex.natAbs < 2^63 ∧ parseReal L.arith t.text = .ok k := by
  obtain ⟨ls, rest, _, _, _, _, _, hts⟩ := C50_tokens_are_longest_matches L s
  have key : ∀ {pos ls ts}, Tokens L pos ls ts → ∀ t ∈ ts, t.kind = .real k →
      ∃ neg ints frac ex, RealText t.text neg ints frac ex ∧ ex.natAbs < 2^63 ∧ parseReal L.arith t.text = .ok k := by
    intro pos ls ts h
    induction h with
    | nil => intro t ht; cases ht
    | skip _ _ ih => exact ih
    | token hko _ ih =>
      intro t ht hk
      rcases List.mem_cons.mp ht with rfl | ht
      · simp only at hk
        subst hk
        cases hko with
        | real hr he => exact ⟨_, _, _, _, hr, he, by rw [parseReal_spec L.arith hr, if_pos he]⟩
      · exact ih t ht hk
  exact key (hts ts l h).1 t ht hk

example : ∃ l, lex demo [40, 49, 46, 53, 41] =
    .ok ([⟨.lparen, [40], 0, 1⟩, ⟨.real 0, [49, 46, 53], 1, 4⟩, ⟨.rparen, [41], 4, 5⟩], l) := ⟨_, rfl⟩

end Ab.Edn
