import Verif.Proof.EdnLexer
/-! Which bytes a rule can match, and the lexemes of texts written with single spaces. -/
namespace Ab.Re

open Spec

/-- Can the byte occur in a match? -/
def uses : Re → Byte → Bool
  | .emp, _ => false
  | .eps, _ => false
  | .cls p, c => p c
  | .seq a b, c => uses a c || uses b c
  | .alt a b, c => uses a c || uses b c
  | .star a, c => uses a c

/-- Can a match start with the byte? -/
def first : Re → Byte → Bool
  | .emp, _ => false
  | .eps, _ => false
  | .cls p, c => p c
  | .seq a b, c => first a c || (nullable a && first b c)
  | .alt a b, c => first a c || first b c
  | .star a, c => first a c

theorem lang_uses {r : Re} {s : List Byte} (h : Lang r s) : ∀ c ∈ s, uses r c = true := by
  induction h with
  | eps => simp
  | cls hp => intro c hc; simp at hc; subst hc; exact hp
  | seq _ _ h1 h2 =>
    intro c hc
    simp only [uses, Bool.or_eq_true]
    rcases List.mem_append.mp hc with h | h
    · exact Or.inl (h1 c h)
    · exact Or.inr (h2 c h)
  | altL _ h1 => intro c hc; simp [uses, h1 c hc]
  | altR _ h1 => intro c hc; simp [uses, h1 c hc]
  | starNil => simp
  | starCons _ _ h1 h2 =>
    intro c hc
    rcases List.mem_append.mp hc with h | h
    · exact h1 c h
    · exact h2 c h

theorem lang_first {r : Re} {s : List Byte} (h : Lang r s) : ∀ c u, s = c :: u → first r c = true := by
  induction h with
  | eps => simp
  | cls hp => intro c u hc; simp at hc; rw [← hc.1]; exact hp
  | @seq a b s t ha _ h1 h2 =>
    intro c u hc
    simp only [first, Bool.or_eq_true, Bool.and_eq_true]
    cases s with
    | nil => exact Or.inr ⟨nullable_iff.mpr ha, h2 c u hc⟩
    | cons d s => simp at hc; exact Or.inl (h1 c s (by rw [hc.1]))
  | altL _ h1 => intro c u hc; simp [first, h1 c u hc]
  | altR _ h1 => intro c u hc; simp [first, h1 c u hc]
  | starNil => simp
  | @starCons a s t _ _ h1 h2 =>
    intro c u hc
    cases s with
    | nil => exact h2 c u hc
    | cons d s => simp at hc; exact h1 c s (by rw [hc.1])

theorem lang_seq {a b : Re} {s : List Byte} (h : Lang (.seq a b) s) :
    ∃ t u, s = t ++ u ∧ Lang a t ∧ Lang b u := by
  cases h with
  | seq h1 h2 => exact ⟨_, _, rfl, h1, h2⟩

theorem lang_alt {a b : Re} {s : List Byte} (h : Lang (.alt a b) s) : Lang a s ∨ Lang b s := by
  cases h with
  | altL h => exact Or.inl h
  | altR h => exact Or.inr h

theorem lang_cls {p} {s : List Byte} (h : Lang (.cls p) s) : ∃ c, s = [c] ∧ p c = true := by
  cases h with
  | cls h => exact ⟨_, rfl, h⟩

theorem lang_ch {n : Nat} {s : List Byte} : Lang (ch n) s ↔ s = [BitVec.ofNat 8 n] := by
  constructor
  · intro h
    obtain ⟨c, rfl, hc⟩ := lang_cls h
    simp at hc; rw [hc]
  · rintro rfl; exact .cls (by simp)

theorem lang_lit : ∀ {l : List Nat} {s : List Byte}, Lang (lit l) s ↔ s = l.map (BitVec.ofNat 8)
  | [], s => by
    constructor
    · intro h; cases h; rfl
    · rintro rfl; exact .eps
  | [c], s => lang_ch
  | c :: d :: cs, s => by
    show Lang (.seq (ch c) (lit (d :: cs))) s ↔ _
    constructor
    · intro h
      obtain ⟨t, u, rfl, h1, h2⟩ := lang_seq h
      rw [lang_ch.mp h1, lang_lit.mp h2]; rfl
    · rintro rfl
      exact .seq (s := [BitVec.ofNat 8 c]) (lang_ch.mpr rfl) (lang_lit.mpr rfl)

theorem star_cls {p : Byte → Bool} : ∀ {s : List Byte}, (∀ c ∈ s, p c = true) → Lang (.star (.cls p)) s
  | [], _ => .starNil
  | c :: s, h => .starCons (s := [c]) (.cls (h c (by simp))) (star_cls (fun d hd => h d (by simp [hd])))

/-- A concrete text is decided by computing. -/
theorem not_lang {r : Re} {s : List Byte} (h : nullable (derivs s r) = false) : ¬ Lang r s := by
  intro hl
  have h2 : Lang (derivs s r) [] := derivs_iff.mpr (by simpa using hl)
  rw [nullable_iff.mpr h2] at h; cases h

end Ab.Re

namespace Ab.Edn

open Spec Re

/-- What may follow a token in a spaced text. -/
def Sp (rest : List Byte) : Prop := rest = [] ∨ ∃ u, rest = 32#8 :: u

/-- Bytes that can start a string, a comment or whitespace. -/
def spacey (c : Byte) : Bool := c == 34#8 || c == 59#8 || isWs c

theorem rule_space {q : Rule × Re} (hq : q ∈ rules) : uses q.2 32#8 = false ∨ ∀ c, first q.2 c = true → spacey c = true := by
  simp only [rules, List.mem_cons, List.not_mem_nil, or_false] at hq
  rcases hq with h | h | h | h | h | h | h | h | h | h | h | h | h | h | h | h <;> subst h
  all_goals first | (left; rfl) | right
  all_goals intro c hc
  all_goals simp [stringRe, wsRe, commentRe, first, plus, ch, nullable] at hc
  all_goals simp [spacey, hc]

theorem longest_token {t rest : List Byte} {k : Rule} {i : Nat} {r : Re} (hsp : Sp rest)
    (hi : rules[i]? = some (k, r)) (hl : Lang r t)
    (hearly : ∀ (j : Nat) (q : Rule × Re), j < i → rules[j]? = some q → ¬ Lang q.2 t)
    {c : Byte} {u : List Byte} (ht : t = c :: u) (hc : spacey c = false) :
    Longest rules (t ++ rest) k t.length := by
  refine ⟨by simp [ht], by simp, ⟨i, r, hi, by simpa using hl, ?_⟩, ?_⟩
  · intro j q hj hq
    simpa using hearly j q hj hq
  · intro m q hm hle hq hlang
    rcases hsp with h | ⟨v, h⟩
    · subst h; simp at hle; omega
    · subst h
      have he : (t ++ 32#8 :: v).take m = t ++ 32#8 :: v.take (m - t.length - 1) := by
        rw [List.take_append]
        have h1 : t.take m = t := List.take_of_length_le (by omega)
        rw [h1]
        congr 1
        obtain ⟨d, hd⟩ : ∃ d, m - t.length = d + 1 := ⟨m - t.length - 1, by omega⟩
        rw [hd]; rfl
      rw [he] at hlang
      rcases rule_space hq with h1 | h1
      · have := lang_uses hlang 32#8 (by simp)
        rw [h1] at this; cases this
      · have := h1 c (lang_first hlang c (u ++ 32#8 :: v.take (m - t.length - 1)) (by rw [ht]; rfl))
        rw [hc] at this; cases this

theorem not_ws_uses {c : Byte} (hc : isWs c = false) : uses wsRe c = false := by
  simp [wsRe, plus, uses, hc]

theorem rule_starts_space {q : Rule × Re} (hq : q ∈ rules) : q = (.whitespace, wsRe) ∨ first q.2 32#8 = false := by
  simp only [rules, List.mem_cons, List.not_mem_nil, or_false] at hq
  rcases hq with h | h | h | h | h | h | h | h | h | h | h | h | h | h | h | h <;> subst h
  all_goals first | (right; rfl) | (left; rfl)

/-- A single space before a token. -/
theorem longest_space {rest : List Byte} (h : rest = [] ∨ ∃ c u, rest = c :: u ∧ isWs c = false) :
    Longest rules (32#8 :: rest) .whitespace 1 := by
  refine ⟨by omega, by simp, ⟨14, wsRe, rfl, ?_, ?_⟩, ?_⟩
  · exact .seq (s := [32#8]) (t := []) (.cls rfl) .starNil
  · intro j q hj hq hlang
    have hm : q ∈ rules := List.mem_of_getElem? hq
    rcases rule_starts_space hm with h | h
    · subst h
      have hh : ∀ (j : Nat), j < 14 → rules[j]? ≠ some (Rule.whitespace, wsRe) := by
        intro j hj hq
        have h2 : (rules.map (·.1))[j]? = some Rule.whitespace := by simp [hq]
        clear hq
        revert h2
        revert j
        decide
      exact hh j hj hq
    · have := lang_first hlang 32#8 [] rfl
      rw [h] at this; cases this
  · intro m q hm hle hq hlang
    rcases h with h | ⟨c, u, h, hc⟩
    · subst h; simp at hle; omega
    · subst h
      obtain ⟨d, rfl⟩ : ∃ d, m = d + 2 := ⟨m - 2, by omega⟩
      have he : (32#8 :: c :: u).take (d + 2) = 32#8 :: c :: u.take d := rfl
      rw [he] at hlang
      rcases rule_starts_space hq with h | h
      · subst h
        have := lang_uses hlang c (by simp)
        rw [not_ws_uses hc] at this; cases this
      · have := lang_first hlang 32#8 _ rfl
        rw [h] at this; cases this

/-! ### Integers -/

theorem star_digits {s : List Byte} (h : Lang (.star digitRe) s) : ∀ c ∈ s, isDigit c = true := by
  intro c hc
  have := lang_uses h c hc
  simpa [uses, digitRe] using this

/-- Every integer literal is an optional sign and digits. -/
theorem integer_text {t : List Byte} (h : Lang integerRe t) : ∃ v, IntText t v := by
  obtain ⟨sg, ds, rfl, h1, h2⟩ := lang_seq h
  have hd : ds ≠ [] ∧ ∀ c ∈ ds, isDigit c = true := by
    rcases lang_alt h2 with h2 | h2
    · rw [lang_ch.mp h2]; exact ⟨by simp, by decide⟩
    · obtain ⟨a, b, rfl, h3, h4⟩ := lang_seq h2
      obtain ⟨c, rfl, hc⟩ := lang_cls h3
      refine ⟨by simp, ?_⟩
      intro x hx
      simp at hx
      rcases hx with hx | hx
      · subst hx
        have hc : 49#8 ≤ x ∧ x ≤ 57#8 := by simpa using hc
        simp only [isDigit, decide_eq_true_eq]
        refine ⟨?_, hc.2⟩
        have := BitVec.le_def.mp hc.1
        exact BitVec.le_def.mpr (by simp at this ⊢; omega)
      · exact star_digits h4 x hx
  rcases lang_alt h1 with h1 | h1
  · cases h1; exact ⟨_, .plain hd.1 hd.2⟩
  · rcases lang_alt h1 with h1 | h1 <;> rw [lang_ch.mp h1]
    · exact ⟨_, .plus hd.1 hd.2⟩
    · exact ⟨_, .minus hd.1 hd.2⟩

theorem real_has {t : List Byte} (h : Lang realRe t) : 46#8 ∈ t ∨ 101#8 ∈ t ∨ 69#8 ∈ t := by
  have hpt : ∀ {u}, Lang realPtRe u → 46#8 ∈ u := by
    intro u h
    obtain ⟨a, b, rfl, h1, -⟩ := lang_seq h
    rw [lang_ch.mp h1]; simp
  have hex : ∀ {u}, Lang realExRe u → 101#8 ∈ u ∨ 69#8 ∈ u := by
    intro u h
    obtain ⟨a, b, rfl, h1, -⟩ := lang_seq h
    rcases lang_alt h1 with h1 | h1 <;> rw [lang_ch.mp h1] <;> simp
  obtain ⟨a, b, rfl, -, h2⟩ := lang_seq h
  obtain ⟨c, d, rfl, -, h4⟩ := lang_seq h2
  simp only [List.mem_append]
  rcases lang_alt h4 with h4 | h4
  · exact Or.inl (Or.inr (Or.inr (hpt h4)))
  · rcases lang_alt h4 with h4 | h4
    · rcases hex h4 with h | h
      · exact Or.inr (Or.inl (Or.inr (Or.inr h)))
      · exact Or.inr (Or.inr (Or.inr (Or.inr h)))
    · obtain ⟨e, f, rfl, h5, -⟩ := lang_seq h4
      exact Or.inl (Or.inr (Or.inr (List.mem_append.mpr (Or.inl (hpt h5)))))

theorem integer_not_real {t : List Byte} (h : Lang integerRe t) : ¬ Lang realRe t := by
  intro h'
  rcases real_has h' with hh | hh | hh
  · have := lang_uses h _ hh; revert this; decide
  · have := lang_uses h _ hh; revert this; decide
  · have := lang_uses h _ hh; revert this; decide

theorem lt_cases {j n : Nat} (h : j < n + 1) : j = n ∨ j < n := by omega

/-- The first byte of an integer. -/
theorem integer_head {t : List Byte} (h : Lang integerRe t) :
    ∃ c u, t = c :: u ∧ (isDigit c = true ∨ c = 43#8 ∨ c = 45#8) := by
  cases t with
  | nil => exact absurd h (not_lang rfl)
  | cons c u =>
    refine ⟨c, u, rfl, ?_⟩
    have := lang_first h c u rfl
    simp [integerRe, first, signRe, opt, ch, nullable] at this
    rcases this with h | h | h
    · exact Or.inr (h.imp_left id)
    · subst h; left; decide
    · left
      simp only [isDigit, decide_eq_true_eq]
      refine ⟨?_, h.2⟩
      have := BitVec.le_def.mp h.1
      exact BitVec.le_def.mpr (by simp at this ⊢; omega)

theorem not_lit {l : List Nat} {t : List Byte} {c : Byte} {u : List Byte} (ht : t = c :: u)
    (hc : (l.map (BitVec.ofNat 8)).head? ≠ some c) : ¬ Lang (lit l) t := by
  intro h
  rw [lang_lit.mp h] at ht
  rw [ht] at hc; simp at hc

theorem integer_early {t : List Byte} (h : Lang integerRe t) (j : Nat) (q : Rule × Re) (hj : j < 4)
    (hq : rules[j]? = some q) : ¬ Lang q.2 t := by
  obtain ⟨c, u, ht, hc⟩ := integer_head h
  have h3 : ∀ d : Byte, d = 110#8 ∨ d = 116#8 ∨ d = 102#8 → c ≠ d := by
    intro d hd hcd
    subst hcd
    rcases hd with hd | hd | hd <;> subst hd <;> revert hc <;> decide
  have hj' : j = 0 ∨ j = 1 ∨ j = 2 ∨ j = 3 := by omega
  rcases hj' with hj | hj | hj | hj <;> subst hj <;> (injection hq with hq; subst hq)
  · exact not_lit ht (by simpa using (h3 _ (Or.inl rfl)).symm)
  · exact not_lit ht (by simpa using (h3 _ (Or.inr (Or.inl rfl))).symm)
  · exact not_lit ht (by simpa using (h3 _ (Or.inr (Or.inr rfl))).symm)
  · exact integer_not_real h

theorem digit_not_spacey {c : Byte} (h : isDigit c = true ∨ c = 43#8 ∨ c = 45#8) : spacey c = false := by
  revert h; revert c; decide +kernel

theorem integer_longest {t rest : List Byte} (hsp : Sp rest) (h : Lang integerRe t) :
    Longest rules (t ++ rest) .integer t.length := by
  obtain ⟨c, u, ht, hc⟩ := integer_head h
  exact longest_token (i := 4) hsp rfl h (integer_early h) ht (digit_not_spacey hc)

end Ab.Edn
