import Verif.Spec.EdnTree
import Verif.Proof.EdnSim
import Verif.Proof.EdnGrammar
import Verif.Proof.EdnReal
/-! Lexing a written tree. -/
namespace Ab.Edn

open Spec Re

/-- A word the lexer reads as one token of the given kind when a space or the end follows. -/
structure Word (L : Lib) (w : List Byte) (k : Kind) : Prop where
  tok : ∃ r, tokenOf L r w = .ok (some k) ∧ ∀ rest, Sp rest → Longest rules (w ++ rest) r w.length
  head : ∃ c u, w = c :: u ∧ isWs c = false

theorem word_concrete {L : Lib} {w : List Byte} {k : Kind} {i : Nat} {r : Rule} {re : Re} {c : Byte} {u : List Byte}
    (hw : w = c :: u) (hi : rules[i]? = some (r, re)) (hl : nullable (derivs w re) = true)
    (hearly : (rules.take i).all (fun q => !nullable (derivs w q.2)) = true)
    (hc : spacey c = false) (ht : tokenOf L r w = .ok (some k)) : Word L w k := by
  refine ⟨⟨r, ht, fun rest hsp => ?_⟩, ⟨c, u, hw, ?_⟩⟩
  · refine longest_token hsp hi ?_ ?_ hw hc
    · have := derivs_iff.mp (nullable_iff.mp hl); simpa using this
    · intro j q hj hq
      apply not_lang
      have hmem : q ∈ rules.take i := by
        rw [List.mem_iff_getElem?]
        exact ⟨j, by rw [List.getElem?_take_of_lt hj]; exact hq⟩
      have := List.all_eq_true.mp hearly q hmem
      simpa using this
  · simp [spacey] at hc; exact hc.2

theorem word_nil (L : Lib) : Word L [110, 105, 108] .nil :=
  word_concrete (i := 0) rfl rfl rfl rfl rfl rfl
theorem word_true (L : Lib) : Word L [116, 114, 117, 101] (.bool true) :=
  word_concrete (i := 1) rfl rfl rfl rfl rfl rfl
theorem word_false (L : Lib) : Word L [102, 97, 108, 115, 101] (.bool false) :=
  word_concrete (i := 2) rfl rfl rfl rfl rfl rfl
theorem word_lparen (L : Lib) : Word L [40] .lparen := word_concrete (i := 5) rfl rfl rfl rfl rfl rfl
theorem word_rparen (L : Lib) : Word L [41] .rparen := word_concrete (i := 6) rfl rfl rfl rfl rfl rfl
theorem word_lbracket (L : Lib) : Word L [91] .lbracket := word_concrete (i := 7) rfl rfl rfl rfl rfl rfl
theorem word_rbracket (L : Lib) : Word L [93] .rbracket := word_concrete (i := 8) rfl rfl rfl rfl rfl rfl
theorem word_lbrace (L : Lib) : Word L [123] .lbrace := word_concrete (i := 9) rfl rfl rfl rfl rfl rfl
theorem word_rbrace (L : Lib) : Word L [125] .rbrace := word_concrete (i := 10) rfl rfl rfl rfl rfl rfl

/-! ### Decimal notation -/

theorem digitsVal_snoc (ds : List Byte) (d : Byte) : digitsVal (ds ++ [d]) = digitsVal ds * 10 + (d.toNat - 48) := by
  induction ds with
  | nil => simp [digitsVal]
  | cons x ds ih =>
    simp only [List.cons_append, digitsVal, ih, List.length_append, List.length_cons, List.length_nil, Nat.pow_succ,
      Nat.add_mul, Nat.mul_assoc, Nat.zero_add]
    omega

theorem digit_ofNat {n : Nat} (h : n < 10) : (BitVec.ofNat 8 (48 + n)).toNat = 48 + n := by
  rw [BitVec.toNat_ofNat, Nat.mod_eq_of_lt (by omega)]

theorem isDigit_iff {b : Byte} : isDigit b = true ↔ 48 ≤ b.toNat ∧ b.toNat ≤ 57 := by
  simp only [isDigit, decide_eq_true_eq]
  rw [BitVec.le_def, BitVec.le_def]
  exact Iff.rfl

theorem decimalNat_spec (n : Nat) : digitsVal (decimalNat n) = n ∧ (∀ d ∈ decimalNat n, isDigit d = true) ∧
    decimalNat n ≠ [] ∧ (0 < n → ∃ c u, decimalNat n = c :: u ∧ 49#8 ≤ c ∧ c ≤ 57#8) := by
  induction n using Nat.strongRecOn with
  | _ n ih =>
    rw [decimalNat]
    split
    · rename_i h
      have hd := digit_ofNat h
      refine ⟨?_, ?_, by simp, ?_⟩
      · simp only [digitsVal, hd, List.length_nil, Nat.pow_zero]; omega
      · intro d hd'; simp at hd'; subst hd'
        rw [isDigit_iff, hd]; omega
      · intro hpos
        refine ⟨_, [], rfl, ?_, ?_⟩
        · rw [BitVec.le_def, hd]; show 49 ≤ _; omega
        · rw [BitVec.le_def, hd]; show _ ≤ 57; omega
    · rename_i h
      obtain ⟨h1, h2, h3, h4⟩ := ih (n / 10) (by omega)
      have hd := digit_ofNat (n := n % 10) (by omega)
      refine ⟨?_, ?_, by simp, ?_⟩
      · rw [digitsVal_snoc, h1, hd]; omega
      · intro d hd'
        rcases List.mem_append.mp hd' with hd' | hd'
        · exact h2 d hd'
        · simp at hd'; subst hd'; rw [isDigit_iff, hd]; omega
      · intro _
        obtain ⟨c, u, hc, h5, h6⟩ := h4 (by omega)
        exact ⟨c, u ++ _, by rw [hc]; rfl, h5, h6⟩

theorem decimal_spec (v : Int) : IntText (decimal v) v ∧ Lang integerRe (decimal v) := by
  obtain ⟨h1, h2, h3, h4⟩ := decimalNat_spec v.natAbs
  have hbody : Lang (.alt (ch 48) (.seq (.cls (fun b => decide (49#8 ≤ b ∧ b ≤ 57#8))) (.star digitRe)))
      (decimalNat v.natAbs) := by
    rcases Nat.eq_zero_or_pos v.natAbs with h0 | hpos
    · rw [h0]; exact .altL (lang_ch.mpr (by rw [decimalNat]; rfl))
    · obtain ⟨c, u, hc, h5, h6⟩ := h4 hpos
      rw [hc]
      refine .altR (.seq (s := [c]) (.cls (by simp [h5, h6])) (star_cls ?_))
      intro d hd; exact h2 d (by rw [hc]; simp [hd])
  unfold decimal
  split
  · rename_i hneg
    constructor
    · have := IntText.minus h3 h2
      rw [h1] at this
      have e : -(v.natAbs : Int) = v := by omega
      rwa [e] at this
    · exact .seq (s := [45#8]) (.altR (.altR (lang_ch.mpr rfl))) hbody
  · rename_i hneg
    constructor
    · have := IntText.plain h3 h2
      rw [h1] at this
      have e : (v.natAbs : Int) = v := by omega
      rwa [e] at this
    · exact .seq (s := []) (.altL .eps) hbody

theorem word_int (L : Lib) {v : Int} (h : v.natAbs < 2^63) : Word L (decimal v) (.integer (BitVec.ofInt 64 v)) := by
  obtain ⟨h1, h2⟩ := decimal_spec v
  refine ⟨⟨.integer, ?_, fun rest hsp => integer_longest hsp h2⟩, ?_⟩
  · simp only [tokenOf, parseInteger_spec h1, if_pos h]; rfl
  · obtain ⟨c, u, ht, hc⟩ := integer_head h2
    have := digit_not_spacey hc
    simp [spacey] at this
    exact ⟨c, u, ht, this.2⟩

/-! ### Symbols and keywords -/

theorem symbol_head {n : List Byte} (h : Lang symbolRe n) :
    ∃ c u, n = c :: u ∧ (isAlpha c = true ∨ isMisc c = true ∨ isNumChar c = true) := by
  cases n with
  | nil => exact absurd h (not_lang rfl)
  | cons c u =>
    refine ⟨c, u, rfl, ?_⟩
    have := lang_first h c u rfl
    have hn : first nameRe c = true → isAlpha c = true ∨ isMisc c = true ∨ isNumChar c = true := by
      intro h
      simp only [nameRe, first, nullable, Bool.or_eq_true, Bool.false_and, Bool.false_eq_true, or_false] at h
      rcases h with (h | h) | h
      · exact Or.inl h
      · exact Or.inr (Or.inl h)
      · exact Or.inr (Or.inr h)
    simp only [symbolRe, first, opt, Bool.or_eq_true, Bool.and_eq_true] at this
    rcases this with (h | h | h) | h
    · cases h
    · exact hn h
    · revert h; rintro ⟨h, -⟩; cases h
    · exact hn h.2

theorem symbol_head_plain {c : Byte} (h : isAlpha c = true ∨ isMisc c = true ∨ isNumChar c = true) :
    spacey c = false ∧ isDigit c = false ∧ isWs c = false ∧
    c ≠ 40#8 ∧ c ≠ 41#8 ∧ c ≠ 91#8 ∧ c ≠ 93#8 ∧ c ≠ 123#8 ∧ c ≠ 125#8 ∧ c ≠ 58#8 := by
  revert h; revert c; decide +kernel

theorem second_disjoint {d : Byte} (h : isAlpha d = true ∨ isSpecial d = true) : isDigit d = false := by
  revert h; revert d; decide +kernel

/-- After a sign, a symbol goes on with a letter or special character. -/
theorem symbol_second {c : Byte} {u : List Byte} (hc : c = 43#8 ∨ c = 45#8) (h : Lang symbolRe (c :: u)) :
    ∃ d v, u = d :: v ∧ isDigit d = false := by
  have hname : ∀ {w}, Lang nameRe (c :: w) → ∃ d v, w = d :: v ∧ (isAlpha d = true ∨ isSpecial d = true) := by
    intro w hw
    rcases lang_alt hw with hw | hw
    · have := lang_first hw c w rfl
      rcases hc with rfl | rfl <;> cases this
    · obtain ⟨a, b, he, h1, h2⟩ := lang_seq hw
      obtain ⟨x, rfl, -⟩ := lang_cls h1
      obtain ⟨a', b', he', h3, -⟩ := lang_seq h2
      obtain ⟨y, rfl, hy⟩ := lang_cls h3
      injection he with e1 e2
      refine ⟨y, b', by rw [e2, he']; rfl, by simpa using hy⟩
  obtain ⟨a, b, he, h1, h2⟩ := lang_seq h
  rcases lang_alt h1 with h1 | h1
  · cases h1
    simp at he
    rw [← he] at h2
    obtain ⟨d, v, e, hd⟩ := hname h2
    exact ⟨d, v, e, second_disjoint hd⟩
  · obtain ⟨p, q, rfl, h3, h4⟩ := lang_seq h1
    cases p with
    | nil => exact absurd h3 (not_lang rfl)
    | cons x p =>
      simp at he
      obtain ⟨rfl, he⟩ := he
      obtain ⟨d, v, e, hd⟩ := hname h3
      exact ⟨d, v ++ q ++ b, by rw [he, e]; simp, second_disjoint hd⟩

theorem integer_second {c d : Byte} {u : List Byte} (hc : c = 43#8 ∨ c = 45#8) (h : Lang integerRe (c :: d :: u)) :
    isDigit d = true := by
  have h2 := lang_first (deriv_iff.mpr h) d u rfl
  rcases hc with rfl | rfl
  all_goals
    simp [integerRe, signRe, opt, ch, deriv, first, nullable] at h2
    rcases h2 with rfl | h2
    · decide
    · rw [isDigit_iff]
      have h3 := BitVec.le_def.mp h2.1
      have h4 := BitVec.le_def.mp h2.2
      simp at h3 h4; omega

theorem real_second {c d : Byte} {u : List Byte} (hc : c = 43#8 ∨ c = 45#8) (h : Lang realRe (c :: d :: u)) :
    isDigit d = true := by
  have h2 := lang_first (deriv_iff.mpr h) d u rfl
  rcases hc with rfl | rfl
  all_goals
    rw [← show first (deriv _ realRe) d = isDigit d from ?_]
    · exact h2
    · simp [realRe, realPtRe, realExRe, signRe, opt, ch, deriv, first, nullable, plus, digitRe,
        show isDigit 43#8 = false from rfl, show isDigit 45#8 = false from rfl]

theorem real_head {c : Byte} {u : List Byte} (h : Lang realRe (c :: u)) : isDigit c = true ∨ c = 43#8 ∨ c = 45#8 := by
  have h2 := lang_first h c u rfl
  simp [realRe, signRe, opt, ch, first, nullable, plus, digitRe] at h2
  rcases h2 with h2 | h2
  · exact Or.inr h2
  · exact Or.inl h2

theorem delim_early {n : Nat} {c : Byte} {u : List Byte} (h : c ≠ BitVec.ofNat 8 n) : ¬ Lang (ch n) (c :: u) := by
  intro hl
  have := lang_ch.mp hl
  injection this with h1 _
  exact h h1

theorem word_symbol (L : Lib) {n : List Byte} (h' : IsSymbol n) : Word L n .symbol := by
  have h : Lang symbolRe n ∧ n ≠ [110, 105, 108] ∧ n ≠ [116, 114, 117, 101] ∧ n ≠ [102, 97, 108, 115, 101] :=
    ⟨symbol_iff.mpr h'.1, h'.2⟩
  obtain ⟨hs, hnil, htrue, hfalse⟩ := h
  obtain ⟨c, u, hn, hc⟩ := symbol_head hs
  obtain ⟨p1, p2, p3, p4, p5, p6, p7, p8, p9, p10⟩ := symbol_head_plain hc
  refine ⟨⟨.symbol, rfl, fun rest hsp => longest_token (i := 12) hsp rfl hs ?_ hn p1⟩, ⟨c, u, hn, p3⟩⟩
  intro j q hj hq
  have hnum : ∀ re, (∀ c u, Lang re (c :: u) → isDigit c = true ∨ c = 43#8 ∨ c = 45#8) →
      (∀ c d u, c = 43#8 ∨ c = 45#8 → Lang re (c :: d :: u) → isDigit d = true) → ¬ Lang re n := by
    intro re h1 h2 hl
    rw [hn] at hl
    rcases h1 c u hl with hd | hd
    · rw [p2] at hd; cases hd
    · rw [hn] at hs
      obtain ⟨d, v, e, hdd⟩ := symbol_second hd hs
      rw [e] at hl
      rw [h2 c d v hd hl] at hdd; cases hdd
  have hj' : j = 0 ∨ j = 1 ∨ j = 2 ∨ j = 3 ∨ j = 4 ∨ j = 5 ∨ j = 6 ∨ j = 7 ∨ j = 8 ∨ j = 9 ∨ j = 10 ∨ j = 11 := by omega
  rcases hj' with h | h | h | h | h | h | h | h | h | h | h | h <;> subst h <;> (injection hq with hq; subst hq)
  · intro hl; exact hnil (lang_lit.mp hl)
  · intro hl; exact htrue (lang_lit.mp hl)
  · intro hl; exact hfalse (lang_lit.mp hl)
  · exact hnum _ (fun c u h => real_head h) (fun c d u hc h => real_second hc h)
  · refine hnum _ ?_ (fun c d u hc h => integer_second hc h)
    intro c u h
    obtain ⟨c', u', e, h'⟩ := integer_head h
    injection e with e1 e2; subst e1; exact h'
  · rw [hn]; exact delim_early p4
  · rw [hn]; exact delim_early p5
  · rw [hn]; exact delim_early p6
  · rw [hn]; exact delim_early p7
  · rw [hn]; exact delim_early p8
  · rw [hn]; exact delim_early p9
  · intro hl
    rw [hn] at hl
    obtain ⟨a, b, e, h1, -⟩ := lang_seq hl
    rw [lang_ch.mp h1] at e
    injection e with e1 _
    exact p10 e1

theorem word_keyword (L : Lib) {n : List Byte} (h' : SymbolText n) : Word L (58#8 :: n) .keyword := by
  have h := symbol_iff.mpr h'
  have hl : Lang keywordRe (58#8 :: n) := .seq (s := [58#8]) (lang_ch.mpr rfl) h
  refine ⟨⟨.keyword, rfl, fun rest hsp => longest_token (i := 11) hsp rfl hl ?_ rfl rfl⟩, ⟨_, _, rfl, rfl⟩⟩
  intro j q hj hq hlang
  have hf := lang_first hlang 58#8 n rfl
  have hall : ∀ (j : Nat), j < 11 → ∀ q, rules[j]? = some q → first q.2 58#8 = false := by
    intro j hj q hq
    have hj' : j = 0 ∨ j = 1 ∨ j = 2 ∨ j = 3 ∨ j = 4 ∨ j = 5 ∨ j = 6 ∨ j = 7 ∨ j = 8 ∨ j = 9 ∨ j = 10 := by omega
    rcases hj' with h | h | h | h | h | h | h | h | h | h | h <;> subst h <;> (injection hq with hq; subst hq; rfl)
  rw [hall j hj q hq] at hf; cases hf

/-! ### Reals -/

theorem word_real (L : Lib) {w : List Byte} {neg ints frac ex} (h : RealText w neg ints frac ex) (hx : ex.natAbs < 2^63) :
    Word L w (.real (realIn L.arith neg ints frac ex)) := by
  have hl : Lang realRe w := real_iff.mpr (text_real h)
  obtain ⟨c, u, rfl⟩ : ∃ c u, w = c :: u := by
    cases w with
    | nil => exact absurd hl (not_lang rfl)
    | cons c u => exact ⟨c, u, rfl⟩
  have hc := real_head hl
  have hs := digit_not_spacey hc
  refine ⟨⟨.real, ?_, fun rest hsp => longest_token (i := 3) hsp rfl hl ?_ rfl hs⟩, ⟨c, u, rfl, ?_⟩⟩
  · simp only [tokenOf, parseReal_spec L.arith h, if_pos hx]; rfl
  · intro j q hj hq hlang
    have hf := lang_first hlang c u rfl
    have key : ∀ c : Byte, (isDigit c = true ∨ c = 43#8 ∨ c = 45#8) → ∀ q ∈ rules.take 3, first q.2 c = false := by decide +kernel
    have hmem : q ∈ rules.take 3 := by
      rw [List.mem_iff_getElem?]
      exact ⟨j, by rw [List.getElem?_take_of_lt hj]; exact hq⟩
    rw [key c hc q hmem] at hf; cases hf
  · simp [spacey] at hs; exact hs.2

/-! ### Strings -/

/-- Inside a string a double quote has a backslash before it. -/
theorem quote_ends : ∀ {ps : List (List Byte)}, (∀ p ∈ ps, StringPiece p) → ∀ {y x : List Byte},
    ps.flatten = y ++ 34#8 :: x → ∃ u, y = u ++ [92#8]
  | [], _, y, x, h => by simp at h
  | p :: ps, hp, y, x, h => by
    have hp' : ∀ q ∈ ps, StringPiece q := fun q hq => hp q (by simp [hq])
    rcases hp p (by simp) with ⟨b, rfl, hb⟩ | ⟨b, rfl, hb⟩
    · have h : b :: ps.flatten = y ++ 34#8 :: x := h
      cases y with
      | nil =>
        injection h with h _
        exact absurd (by rw [h]; unfold oneOf; decide) hb
      | cons c y =>
        injection h with _ h
        obtain ⟨u, hu⟩ := quote_ends hp' h
        exact ⟨c :: u, by rw [hu]; rfl⟩
    · have h : 92#8 :: b :: ps.flatten = y ++ 34#8 :: x := h
      match y, h with
      | [], h => injection h with h _; exact absurd h (by decide)
      | [c], h => injection h with h _; exact ⟨[], by rw [← h]; rfl⟩
      | c :: c' :: y, h =>
        injection h with _ h
        injection h with _ h
        obtain ⟨u, hu⟩ := quote_ends hp' h
        exact ⟨c :: c' :: u, by rw [hu]; rfl⟩

theorem string_ends {s x : List Byte} (hs : ∀ u, s ≠ u ++ [92#8]) (h : Lang stringRe (34#8 :: s ++ 34#8 :: x)) :
    x = [] := by
  obtain ⟨ps, ht, hp⟩ := string_iff.mp h
  have ht : 34#8 :: (s ++ 34#8 :: x) = 34#8 :: (ps.flatten ++ [34#8]) := ht
  injection ht with _ ht
  cases hx : x.reverse with
  | nil => simpa using hx
  | cons c y =>
    have hx : x = y.reverse ++ [c] := by rw [← List.reverse_reverse x, hx]; simp
    rw [hx, show s ++ 34#8 :: (y.reverse ++ [c]) = (s ++ 34#8 :: y.reverse) ++ [c] by simp] at ht
    obtain ⟨u, hu⟩ := quote_ends hp (List.append_inj' ht rfl).1.symm
    exact absurd hu (hs u)

/-- The pieces of a string as written. -/
def pieceOf (b : Byte) : List Byte := if b ∈ ascii "\"'\\" then [92#8, b] else [b]

theorem escaped_pieces : ∀ s : List Byte, escapedText s = (s.map pieceOf).flatten
  | [] => rfl
  | b :: s => by
    rw [escapedText, List.map_cons, List.flatten_cons, pieceOf, escaped_pieces s]
    split <;> rfl

theorem pieceOf_piece (b : Byte) : StringPiece (pieceOf b) := by
  unfold pieceOf
  by_cases h : b ∈ ascii "\"'\\"
  · rw [if_pos h]
    have key : ∀ b : Byte, b ∈ ascii "\"'\\" → b ∈ ascii "tnr\\\"'" := by decide +kernel
    exact Or.inr ⟨b, rfl, key b h⟩
  · rw [if_neg h]
    have key : ∀ b : Byte, b ∈ ascii "\"'" → b ∈ ascii "\"'\\" := by decide +kernel
    exact Or.inl ⟨b, rfl, fun h' => h (key b h')⟩

theorem escaped_last {s : List Byte} (hs : ∀ u, s ≠ u ++ ascii "\\") (u : List Byte) : escapedText s ≠ u ++ [92#8] := by
  intro h
  cases hr : s.reverse with
  | nil =>
    have : s = [] := by simpa using hr
    subst this
    cases u <;> cases h
  | cons c y =>
    have hx : s = y.reverse ++ [c] := by rw [← List.reverse_reverse s, hr]; simp
    have hc : c = 92#8 := by
      rw [hx, escaped_pieces, List.map_append, List.flatten_append] at h
      have e : ([c].map pieceOf).flatten = pieceOf c := by simp
      rw [e] at h
      unfold pieceOf at h
      split at h
      · rw [show [92#8, c] = [92#8] ++ [c] from rfl, ← List.append_assoc] at h
        have := (List.append_inj' h rfl).2
        injection this
      · have := (List.append_inj' h rfl).2
        injection this
    exact hs y.reverse (by rw [hx, hc]; rfl)

theorem escaped_inj : ∀ {s s' : List Byte}, escapedText s = escapedText s' → s = s'
  | [], [], _ => rfl
  | [], b :: s', h => by rw [escapedText, escapedText] at h; split at h <;> cases h
  | b :: s, [], h => by rw [escapedText, escapedText] at h; split at h <;> cases h
  | b :: s, b' :: s', h => by
    rw [escapedText, escapedText] at h
    split at h <;> split at h
    · injection h with _ h; injection h with h1 h2; rw [h1, escaped_inj h2]
    · rename_i hb'
      injection h with h1 _
      exact absurd (by rw [← h1]; decide) hb'
    · rename_i hb _
      injection h with h1 _
      exact absurd (by rw [h1]; decide) hb
    · injection h with h1 h2; rw [h1, escaped_inj h2]

theorem quoted_inj {s s' : List Byte} (h : quotedText s = quotedText s') : s = s' :=
  escaped_inj (List.append_cancel_left (List.append_cancel_right h))

theorem word_string (L : Lib) {s : List Byte} (hs : ∀ u, s ≠ u ++ ascii "\\") :
    Word L (quotedText s) .string := by
  have hl : Lang stringRe (34#8 :: escapedText s ++ [34#8]) := by
    refine string_iff.mpr ⟨s.map pieceOf, by rw [← escaped_pieces]; rfl, ?_⟩
    intro p hp
    obtain ⟨b, hb, rfl⟩ := List.mem_map.mp hp
    exact pieceOf_piece b
  replace hs := escaped_last hs
  unfold quotedText
  generalize escapedText s = s at hs hl
  have hfirst : ∀ q ∈ rules, q.1 ≠ .string → first q.2 34#8 = false := by decide +kernel
  have huniq : ∀ q ∈ rules, q.1 = .string → q.2 = stringRe := by
    intro q hq he
    simp only [rules, List.mem_cons, List.not_mem_nil, or_false] at hq
    rcases hq with rfl | rfl | rfl | rfl | rfl | rfl | rfl | rfl | rfl | rfl | rfl | rfl | rfl | rfl | rfl | rfl <;>
      first | rfl | cases he
  show Word L (34#8 :: s ++ [34#8]) .string
  refine ⟨⟨.string, rfl, fun rest _ => ⟨by simp, by simp, ⟨13, stringRe, rfl, ?_, ?_⟩, ?_⟩⟩, ⟨_, _, rfl, rfl⟩⟩
  · rw [List.take_left]; exact hl
  · intro j q hj hq hlang
    rw [List.take_left] at hlang
    have hne : q.1 ≠ .string := by
      have hj' : j = 0 ∨ j = 1 ∨ j = 2 ∨ j = 3 ∨ j = 4 ∨ j = 5 ∨ j = 6 ∨ j = 7 ∨ j = 8 ∨ j = 9 ∨ j = 10 ∨ j = 11 ∨ j = 12 := by
        omega
      rcases hj' with h | h | h | h | h | h | h | h | h | h | h | h | h <;> subst h <;>
        (injection hq with hq; subst hq; intro h; cases h)
    have hf := lang_first hlang 34#8 (s ++ [34#8]) rfl
    rw [hfirst q (List.mem_of_getElem? hq) hne] at hf; cases hf
  · intro m q hm hle hq hlang
    have he : ((34#8 :: s ++ [34#8]) ++ rest).take m = 34#8 :: s ++ 34#8 :: rest.take (m - (34#8 :: s ++ [34#8]).length) := by
      rw [List.take_append, List.take_of_length_le (by omega)]; simp
    rw [he] at hlang
    by_cases hr : q.1 = .string
    · rw [huniq q hq hr] at hlang
      have := string_ends hs hlang
      have hlen := congrArg List.length this
      rw [List.length_append] at hle
      rw [List.length_take, List.length_nil] at hlen
      omega
    · have hf := lang_first hlang 34#8 _ rfl
      rw [hfirst q hq hr] at hf; cases hf

/-! ### Spaced words -/

/-- Kind and text of a token. -/
def kt (t : Token) : Kind × List Byte := (t.kind, t.text)

/-- The lexemes of spaced words, as computed tokens. -/
theorem lexemes_spaced {L : Lib} : ∀ (ps : List (Kind × List Byte)), (∀ p ∈ ps, Word L p.2 p.1) →
    ∃ ls, Lexemes (spaced (ps.map (·.2))) ls [] ∧
      ∀ pos, ∃ ts, toks L pos ls = .ok ts ∧ ts.map kt = ps
  | [], _ => ⟨[], .done noMatch_nil, fun _ => ⟨[], rfl, rfl⟩⟩
  | [p], h => by
    obtain ⟨⟨r, h1, h2⟩, -⟩ := h p (by simp)
    have hl := h2 [] (Or.inl rfl)
    rw [List.append_nil] at hl
    refine ⟨[(r, p.2)], ?_, fun pos => ⟨[⟨p.1, p.2, pos, pos + p.2.length⟩], ?_, rfl⟩⟩
    · have := Lexemes.step hl (by rw [List.drop_length]; exact .done noMatch_nil)
      rw [List.take_length] at this
      exact this
    · simp only [toks, h1, Outcome.ok_bind]; rfl
  | p :: p' :: ps, h => by
    obtain ⟨⟨r, h1, h2⟩, -⟩ := h p (by simp)
    obtain ⟨ls, hls, hts⟩ := lexemes_spaced (p' :: ps) (fun q hq => h q (by simp [hq]))
    obtain ⟨-, ⟨c, u, hp', hc⟩⟩ := h p' (by simp)
    have hhead : ∃ v, spaced ((p' :: ps).map (·.2)) = c :: v := by
      cases ps with
      | nil => exact ⟨u, hp'⟩
      | cons q qs => exact ⟨u ++ _, by simp only [List.map_cons, spaced, hp']; rfl⟩
    obtain ⟨v, hv⟩ := hhead
    have hsp : Longest rules (32#8 :: spaced ((p' :: ps).map (·.2))) .whitespace 1 :=
      longest_space (Or.inr ⟨c, v, hv, hc⟩)
    have hw := h2 (32#8 :: spaced ((p' :: ps).map (·.2))) (Or.inr ⟨_, rfl⟩)
    have hlex2 : Lexemes (32#8 :: spaced ((p' :: ps).map (·.2))) ((.whitespace, [32#8]) :: ls) [] :=
      Lexemes.step hsp hls
    refine ⟨(r, p.2) :: (.whitespace, [32#8]) :: ls, ?_, fun pos => ?_⟩
    · have := Lexemes.step hw (by rw [List.drop_left]; exact hlex2)
      rw [List.take_left] at this
      exact this
    · obtain ⟨ts, ht, hk⟩ := hts (pos + p.2.length + 1)
      refine ⟨⟨p.1, p.2, pos, pos + p.2.length⟩ :: ts, ?_, ?_⟩
      · simp only [toks, h1, Outcome.ok_bind, tokenOf_skip (show IsSkip .whitespace from Or.inl rfl),
          List.length_singleton, ht]; rfl
      · rw [List.map_cons, hk]; rfl

end Ab.Edn
