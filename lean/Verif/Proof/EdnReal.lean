import Verif.Proof.EdnGrammar
/-! `parse_real` on the text of a real literal. -/
namespace Ab.Edn

open Spec Re

theorem realDigit_iff {b : Byte} : realDigit b = true ↔ Digit b := by
  exact digit_iff b

theorem digit_not {c : Byte} (h : realDigit c = true) : c ≠ 45#8 ∧ c ≠ 43#8 ∧ c ≠ 46#8 ∧ c ≠ 101#8 ∧ c ≠ 69#8 := by
  revert h; revert c; decide +kernel

theorem eE_iff {c : Byte} : oneOf "eE" c ↔ (c = 101#8 ∨ c = 69#8) := by
  have : ∀ c : Byte, oneOf "eE" c ↔ (c = 101#8 ∨ c = 69#8) := by decide +kernel
  exact this c

/-- The integer digits. -/
theorem loop_int {R} (A : Arith R) (rest : List Byte) : ∀ (ds : List Byte) (v : RealVars R),
    (∀ d ∈ ds, realDigit d = true) →
    realLoop A .int v (ds ++ rest) = realLoop A .int
      { v with val := ds.foldl (fun v d => A.add (A.mul v (A.ofInt 10)) (A.ofInt (digitVal d))) v.val } rest
  | [], v, _ => rfl
  | d :: ds, v, h => by
    have hd := h d (by simp)
    rw [List.cons_append, realLoop]
    simp only [realStep, if_pos hd, Outcome.ok_bind]
    rw [loop_int A rest ds _ (fun x hx => h x (by simp [hx]))]
    rfl

/-- The digits after the point. -/
theorem loop_frac {R} (A : Arith R) (rest : List Byte) : ∀ (ds : List Byte) (v : RealVars R),
    (∀ d ∈ ds, realDigit d = true) →
    ∃ f, realLoop A .frac v (ds ++ rest) =
      realLoop A .frac { v with factor := f, val := fracIn A v.factor v.val ds } rest
  | [], v, _ => ⟨v.factor, rfl⟩
  | d :: ds, v, h => by
    have hd := h d (by simp)
    obtain ⟨f, hf⟩ := loop_frac A rest ds (onPtDigit A v d) (fun x hx => h x (by simp [hx]))
    refine ⟨f, ?_⟩
    rw [List.cons_append, realLoop]
    simp only [realStep, if_pos hd, Outcome.ok_bind]
    rw [hf]
    rfl

/-- The exponent digits. -/
theorem loop_exp {R} (A : Arith R) : ∀ (ds : List Byte) (v : RealVars R) (n : Nat),
    (∀ d ∈ ds, realDigit d = true) → v.ex = n → n < 2^63 →
    realLoop A .expDigits v ds =
      if n * 10 ^ ds.length + digitsVal ds < 2^63 then
        .ok (some .expDigits, { v with ex := ((n * 10 ^ ds.length + digitsVal ds : Nat) : Int) })
      else .ub "signed overflow"
  | [], v, n, _, hv, hn => by
    simp only [realLoop, digitsVal, List.length_nil, Nat.pow_zero, Nat.mul_one, Nat.add_zero]
    rw [if_pos hn, ← hv]
  | d :: ds, v, n, h, hv, hn => by
    have hd := h d (by simp)
    have hdig : 48 ≤ d.toNat ∧ d.toNat ≤ 57 := by
      have : 48#8 ≤ d ∧ d ≤ 57#8 := by simpa [realDigit] using hd
      exact ⟨BitVec.le_def.mp this.1, BitVec.le_def.mp this.2⟩
    have hkey : n * 10 ^ (d :: ds).length + digitsVal (d :: ds) =
        (n * 10 + (d.toNat - 48)) * 10 ^ ds.length + digitsVal ds := by
      simp only [List.length_cons, digitsVal, Nat.pow_succ, Nat.add_mul]
      rw [← Nat.add_assoc]
      congr 2
      rw [Nat.mul_assoc, Nat.mul_comm (10 ^ ds.length) 10]
    have hmono : n * 10 + (d.toNat - 48) ≤ n * 10 ^ (d :: ds).length + digitsVal (d :: ds) := by
      rw [hkey]
      have : 1 ≤ 10 ^ ds.length := Nat.one_le_pow _ _ (by omega)
      calc n * 10 + (d.toNat - 48) = (n * 10 + (d.toNat - 48)) * 1 := by omega
        _ ≤ (n * 10 + (d.toNat - 48)) * 10 ^ ds.length := Nat.mul_le_mul_left _ this
        _ ≤ _ := Nat.le_add_right _ _
    rw [realLoop]
    simp only [realStep, if_pos hd, onExDigit, hv]
    by_cases h1 : (2:Int)^63 ≤ (n : Int) * 10
    · rw [if_pos h1, if_neg (by omega)]; rfl
    · rw [if_neg h1]
      by_cases h2 : (2:Int)^63 ≤ (n : Int) * 10 + ((d.toNat : Int) - 48)
      · rw [if_pos h2, if_neg (by omega)]; rfl
      · rw [if_neg h2]
        simp only [Outcome.ok_bind]
        rw [loop_exp A ds _ (n * 10 + (d.toNat - 48)) (fun x hx => h x (by simp [hx])) (by simp only; omega) (by omega)]
        rw [hkey]

/-- The exponent from its first character on. -/
theorem loop_exp_text {R} (A : Arith R) {u : List Byte} {ex : Int} (h : IntText u ex) (v : RealVars R)
    (hv : v.ex = 0) (hn : v.exNeg = false) :
    if ex.natAbs < 2^63 then
      ∃ w : RealVars R, realLoop A .exp v u = .ok (some .expDigits, w) ∧ w.neg = v.neg ∧ w.val = v.val ∧
        (if w.exNeg then w.ex * -1 else w.ex) = ex
    else realLoop A .exp v u = .ub "signed overflow" := by
  have first : ∀ (s : RealState) (v : RealVars R) (ds : List Byte), (s = .exp ∨ s = .expSign) → v.ex = 0 → ds ≠ [] →
      (∀ d ∈ ds, isDigit d = true) → realLoop A s v ds =
        if digitsVal ds < 2^63 then .ok (some .expDigits, { v with ex := ((digitsVal ds : Nat) : Int) })
        else .ub "signed overflow" := by
    intro s v ds hs hv hne hd
    have hd' : ∀ d ∈ ds, realDigit d = true := hd
    have hl := loop_exp A ds v 0 hd' hv (by omega)
    simp only [Nat.zero_mul, Nat.zero_add] at hl
    rw [← hl]
    cases ds with
    | nil => exact absurd rfl hne
    | cons d ds =>
      obtain ⟨n1, n2, _⟩ := digit_not (hd' d (by simp))
      rw [realLoop, realLoop]
      rcases hs with rfl | rfl
      · simp only [realStep, if_neg n1, if_neg n2]
      · simp only [realStep]
  cases h with
  | plain hne hd =>
    rw [Int.natAbs_natCast, first .exp v u (Or.inl rfl) hv hne hd]
    split
    · exact ⟨_, rfl, rfl, rfl, by simp [hn]⟩
    · rfl
  | @plus ds hne hd =>
    have : realLoop A .exp v (43#8 :: ds) = realLoop A .expSign v ds := by
      rw [realLoop]; rfl
    rw [Int.natAbs_natCast, this, first .expSign v ds (Or.inr rfl) hv hne hd]
    split
    · exact ⟨_, rfl, rfl, rfl, by simp [hn]⟩
    · rfl
  | @minus ds hne hd =>
    have : realLoop A .exp v (45#8 :: ds) = realLoop A .expSign { v with exNeg := true } ds := by
      rw [realLoop]; rfl
    rw [Int.natAbs_neg, Int.natAbs_natCast, this, first .expSign { v with exNeg := true } ds (Or.inr rfl) hv hne hd]
    split
    · exact ⟨_, rfl, rfl, rfl, by simp⟩
    · rfl

theorem digits_real {ds : List Byte} (h : Digits ds) : ds ≠ [] ∧ ∀ d ∈ ds, realDigit d = true :=
  ⟨h.1, fun d hd => realDigit_iff.2 (h.2 d hd)⟩

/-- Sign and integer digits. -/
theorem loop_head {R} (A : Arith R) {sg ints : List Byte} {neg : Bool} (rest : List Byte) (hs : SignText sg)
    (hn : neg = true ↔ sg = ascii "-") (hd : Digits ints) :
    realLoop A .start ⟨false, A.ofInt 1, 0, false, A.ofInt 0⟩ (sg ++ ints ++ rest) =
      realLoop A .int ⟨neg, A.ofInt 1, 0, false, wholeIn A ints⟩ rest := by
  obtain ⟨hne, hd⟩ := digits_real hd
  cases ints with
  | nil => exact absurd rfl hne
  | cons d ds =>
    have hdd := hd d (by simp)
    obtain ⟨n1, n2, _⟩ := digit_not hdd
    have hds : ∀ x ∈ ds, realDigit x = true := fun x hx => hd x (by simp [hx])
    rcases hs with rfl | rfl | rfl
    · have hneg : neg = false := by
        cases neg with
        | false => rfl
        | true => exact absurd (hn.1 rfl) (by decide)
      subst hneg
      simp only [List.nil_append, List.cons_append]
      rw [realLoop]
      simp only [realStep, if_neg n1, if_neg n2, if_pos hdd, Outcome.ok_bind]
      rw [loop_int A rest ds _ hds]
      rfl
    · have hneg : neg = false := by
        cases neg with
        | false => rfl
        | true => exact absurd (hn.1 rfl) (by decide)
      subst hneg
      show realLoop A .start _ (43#8 :: (d :: (ds ++ rest))) = _
      rw [realLoop]
      simp only [realStep, if_neg (show ¬ (43#8 : Byte) = 45#8 by decide), if_true, Outcome.ok_bind]
      rw [realLoop]
      simp only [realStep, if_pos hdd, Outcome.ok_bind]
      rw [loop_int A rest ds _ hds]
      rfl
    · have hneg : neg = true := hn.2 rfl
      subst hneg
      show realLoop A .start _ (45#8 :: (d :: (ds ++ rest))) = _
      rw [realLoop]
      simp only [realStep, if_true, Outcome.ok_bind]
      rw [realLoop]
      simp only [realStep, if_pos hdd, Outcome.ok_bind]
      rw [loop_int A rest ds _ hds]
      rfl

/-- `parse_real` on a literal: the value the operations give, unless the exponent does not fit. -/
theorem parseReal_spec {R} (A : Arith R) {t ints frac : List Byte} {neg : Bool} {ex : Int}
    (h : RealText t neg ints frac ex) :
    parseReal A t = if ex.natAbs < 2^63 then .ok (realIn A neg ints frac ex) else .ub "signed overflow" := by
  obtain ⟨sg, pt, et, rfl, hs, hn, hd, hp, he, hne⟩ := h
  unfold parseReal
  rw [List.append_assoc (sg ++ ints), loop_head A (pt ++ et) hs hn hd]
  -- up to the exponent
  have hpt : ∃ (s : RealState) (f : R), (s = .int ∧ pt = [] ∨ s = .frac) ∧
      realLoop A .int ⟨neg, A.ofInt 1, 0, false, wholeIn A ints⟩ (pt ++ et) =
      realLoop A s ⟨neg, f, 0, false, fracIn A (A.ofInt 1) (wholeIn A ints) frac⟩ et := by
    rcases hp with ⟨rfl, rfl⟩ | ⟨rfl, hf⟩
    · exact ⟨.int, _, Or.inl ⟨rfl, rfl⟩, rfl⟩
    · obtain ⟨hne', hf⟩ := digits_real hf
      cases frac with
      | nil => exact absurd rfl hne'
      | cons d ds =>
        have hdd := hf d (by simp)
        obtain ⟨f, hl⟩ := loop_frac A et ds
          (onPtDigit A ⟨neg, A.ofInt 1, 0, false, wholeIn A ints⟩ d) (fun x hx => hf x (by simp [hx]))
        refine ⟨.frac, f, Or.inr rfl, ?_⟩
        show realLoop A .int _ (46#8 :: (d :: (ds ++ et))) = _
        rw [realLoop]
        simp only [realStep, if_neg (show ¬ realDigit 46#8 = true by decide), if_true, Outcome.ok_bind]
        rw [realLoop]
        simp only [realStep, if_pos hdd, Outcome.ok_bind]
        rw [hl]
        rfl
  obtain ⟨s, f, hs', hl⟩ := hpt
  rw [hl]
  rcases he with ⟨rfl, rfl⟩ | ⟨e, u, rfl, hE, hu⟩
  · have : s = .frac := by
      rcases hs' with ⟨_, h⟩ | h
      · exact absurd ⟨h, rfl⟩ hne
      · exact h
    subst this
    simp only [realLoop, Outcome.ok_bind]
    rw [if_pos (Or.inl trivial), if_pos (show Int.natAbs 0 < 2^63 by decide)]
    rfl
  · have hE' := eE_iff.1 hE
    have hnd : ¬ realDigit e = true := by
      intro h
      obtain ⟨_, _, _, h4, h5⟩ := digit_not h
      rcases hE' with h | h
      · exact h4 h
      · exact h5 h
    have hnp : ¬ e = 46#8 := by rcases hE' with h | h <;> rw [h] <;> decide
    have hstep : ∀ v : RealVars R, realLoop A s v (e :: u) = realLoop A .exp v u := by
      intro v
      rw [realLoop]
      rcases hs' with ⟨h, _⟩ | h <;> rw [h]
      · simp only [realStep, if_neg hnd, if_neg hnp, if_pos hE', Outcome.ok_bind]
      · simp only [realStep, if_neg hnd, if_pos hE', Outcome.ok_bind]
    rw [hstep]
    have := loop_exp_text A hu ⟨neg, f, 0, false, fracIn A (A.ofInt 1) (wholeIn A ints) frac⟩ rfl rfl
    split at this
    · next hlt =>
      obtain ⟨w, h1, h2, h3, h4⟩ := this
      rw [h1, if_pos hlt]
      simp only [Outcome.ok_bind]
      rw [if_pos (Or.inr trivial), h2, h3, h4]
      rfl
    · next hlt =>
      rw [this, if_neg hlt]; rfl

/-- The texts of real tokens are these. -/
theorem real_text {t : List Byte} (h : TokenText .real t) : ∃ neg ints frac ex, RealText t neg ints frac ex := by
  obtain ⟨sg, ds, r, rfl, hs, hd, hr⟩ := h
  have hsign : ∃ neg : Bool, neg = true ↔ sg = ascii "-" := ⟨decide (sg = ascii "-"), by simp⟩
  obtain ⟨neg, hneg⟩ := hsign
  have hexp : ∀ {e}, ExpText e → ∃ c u ex, e = c :: u ∧ oneOf "eE" c ∧ IntText u ex := by
    rintro e ⟨c, sg, u, rfl, hc, hs, hu⟩
    obtain ⟨h1, h2⟩ := digits_real hu
    rcases hs with rfl | rfl | rfl
    · exact ⟨c, u, _, rfl, hc, IntText.plain h1 h2⟩
    · exact ⟨c, 43#8 :: u, _, rfl, hc, IntText.plus h1 h2⟩
    · exact ⟨c, 45#8 :: u, _, rfl, hc, IntText.minus h1 h2⟩
  rcases hr with ⟨f, rfl, hf⟩ | he | ⟨p, e, rfl, ⟨f, rfl, hf⟩, he⟩
  · exact ⟨neg, ds, f, 0, sg, _, [], by simp, hs, hneg, hd, Or.inr ⟨rfl, hf⟩, Or.inl ⟨rfl, rfl⟩, by simp [ascii]⟩
  · obtain ⟨c, u, ex, rfl, h1, h2⟩ := hexp he
    exact ⟨neg, ds, [], ex, sg, [], _, by simp, hs, hneg, hd, Or.inl ⟨rfl, rfl⟩, Or.inr ⟨c, u, rfl, h1, h2⟩, by simp⟩
  · obtain ⟨c, u, ex, rfl, h1, h2⟩ := hexp he
    exact ⟨neg, ds, f, ex, sg, _, _, by simp, hs, hneg, hd, Or.inr ⟨rfl, hf⟩, Or.inr ⟨c, u, rfl, h1, h2⟩, by simp⟩

/-- And they are the texts of real tokens. -/
theorem text_real {t : List Byte} {neg ints frac ex} (h : RealText t neg ints frac ex) : TokenText .real t := by
  obtain ⟨sg, pt, et, rfl, hs, -, hd, hp, he, hne⟩ := h
  have hexp : ∀ {c u ex}, oneOf "eE" c → IntText u ex → ExpText (c :: u) := by
    intro c u ex hc hu
    have dg : ∀ {ds : List Byte}, ds ≠ [] → (∀ d ∈ ds, isDigit d = true) → Digits ds := fun h1 h2 => ⟨h1, fun b hb => by
      have key : ∀ b : Byte, isDigit b = true → Digit b := by unfold Digit oneOf; decide +kernel
      exact key b (h2 b hb)⟩
    cases hu with
    | plain h1 h2 => exact ⟨c, [], u, rfl, hc, Or.inl rfl, dg h1 h2⟩
    | @plus ds h1 h2 => exact ⟨c, [43#8], ds, rfl, hc, Or.inr (Or.inl rfl), dg h1 h2⟩
    | @minus ds h1 h2 => exact ⟨c, [45#8], ds, rfl, hc, Or.inr (Or.inr rfl), dg h1 h2⟩
  refine ⟨sg, ints, pt ++ et, by simp, hs, hd, ?_⟩
  rcases hp with ⟨rfl, rfl⟩ | ⟨rfl, hf⟩ <;> rcases he with ⟨rfl, rfl⟩ | ⟨c, u, rfl, h1, h2⟩
  · exact absurd ⟨rfl, rfl⟩ hne
  · exact Or.inr (Or.inl (hexp h1 h2))
  · exact Or.inl ⟨frac, by simp, hf⟩
  · exact Or.inr (Or.inr ⟨_, _, rfl, ⟨frac, rfl, hf⟩, hexp h1 h2⟩)

end Ab.Edn
