import Verif.Spec.EdnGrammar
import Verif.Proof.EdnLexer2
/-! The regular expressions of the lexer describe the grammar. -/
namespace Ab.Edn

open Spec Re

theorem lang_seq_iff {a b : Re} {s : List Byte} : Lang (.seq a b) s ↔ ∃ t u, s = t ++ u ∧ Lang a t ∧ Lang b u :=
  ⟨lang_seq, by rintro ⟨t, u, rfl, h1, h2⟩; exact .seq h1 h2⟩
theorem lang_alt_iff {a b : Re} {s : List Byte} : Lang (.alt a b) s ↔ Lang a s ∨ Lang b s :=
  ⟨lang_alt, fun h => h.elim .altL .altR⟩
theorem lang_cls_iff {p} {s : List Byte} : Lang (.cls p) s ↔ ∃ c, s = [c] ∧ p c = true :=
  ⟨lang_cls, by rintro ⟨c, rfl, h⟩; exact .cls h⟩
theorem lang_eps_iff {s : List Byte} : Lang .eps s ↔ s = [] :=
  ⟨fun h => by cases h; rfl, by rintro rfl; exact .eps⟩
theorem lang_star_iff {a : Re} {s : List Byte} : Lang (.star a) s ↔ ∃ ps : List (List Byte), s = ps.flatten ∧ ∀ p ∈ ps, Lang a p := by
  constructor
  · intro h
    generalize hr : Re.star a = r at h
    induction h with
    | starNil => exact ⟨[], rfl, by simp⟩
    | @starCons b s t h1 h2 _ ih =>
      injection hr with hr; subst hr
      obtain ⟨ps, rfl, hp⟩ := ih rfl
      refine ⟨s :: ps, rfl, ?_⟩
      intro p hm
      rcases List.mem_cons.mp hm with hm | hm
      · rw [hm]; exact h1
      · exact hp p hm
    | _ => cases hr
  · rintro ⟨ps, rfl, hp⟩
    induction ps with
    | nil => exact .starNil
    | cons p ps ih => exact .starCons (hp p (by simp)) (ih (fun q hq => hp q (by simp [hq])))
theorem lang_star_cls {p : Byte → Bool} {s : List Byte} : Lang (.star (.cls p)) s ↔ ∀ c ∈ s, p c = true := by
  constructor
  · intro h
    obtain ⟨ps, rfl, hp⟩ := lang_star_iff.mp h
    intro c hc
    obtain ⟨q, hq, hc⟩ := List.mem_flatten.mp hc
    obtain ⟨d, rfl, hd⟩ := lang_cls (hp q hq)
    simp at hc; rw [hc]; exact hd
  · exact star_cls
theorem lang_plus_cls {p : Byte → Bool} {s : List Byte} : Lang (plus (.cls p)) s ↔ s ≠ [] ∧ ∀ c ∈ s, p c = true := by
  unfold plus
  rw [lang_seq_iff]
  constructor
  · rintro ⟨t, u, rfl, h1, h2⟩
    obtain ⟨c, rfl, hc⟩ := lang_cls h1
    refine ⟨by simp, ?_⟩
    intro d hd
    simp at hd
    rcases hd with hd | hd
    · rw [hd]; exact hc
    · exact lang_star_cls.mp h2 d hd
  · rintro ⟨h1, h2⟩
    cases s with
    | nil => exact absurd rfl h1
    | cons c s => exact ⟨[c], s, rfl, .cls (h2 c (by simp)), star_cls (fun d hd => h2 d (by simp [hd]))⟩

theorem ascii_one {c : Char} : ascii (String.singleton c) = [BitVec.ofNat 8 c.toNat] := by simp [ascii]

instance (s : String) (b : Byte) : Decidable (oneOf s b) := inferInstanceAs (Decidable (b ∈ ascii s))

theorem digit_iff : ∀ b, isDigit b = true ↔ Digit b := by unfold Digit; decide +kernel
theorem letter_iff : ∀ b, isAlpha b = true ↔ Letter b := by unfold Letter; decide +kernel
theorem nameChar_iff : ∀ b, isNameChar b = true ↔ NameChar b := by unfold NameChar Letter Digit; decide +kernel
theorem name0_iff : ∀ b, (isAlpha b || isMisc b) = true ↔ (Letter b ∨ oneOf ".*!_?$%&=<" b) := by
  unfold Letter; decide +kernel
theorem num_iff : ∀ b, isNumChar b = true ↔ oneOf ".+-" b := by decide +kernel
theorem name1_iff : ∀ b, (isAlpha b || isSpecial b) = true ↔ (NameChar b ∧ ¬ Digit b) := by
  unfold NameChar Letter Digit; decide +kernel
theorem ws_iff : ∀ b, isWs b = true ↔ oneOf " \t,\n" b := by decide +kernel

theorem sign_iff {t : List Byte} : Lang signRe t ↔ SignText t := by
  unfold signRe opt
  rw [lang_alt_iff, lang_alt_iff, lang_eps_iff, lang_ch, lang_ch]; rfl
theorem digits_iff {t : List Byte} : Lang (plus digitRe) t ↔ Digits t := by
  unfold digitRe; rw [lang_plus_cls]; simp only [digit_iff]; rfl
theorem point_iff {t : List Byte} : Lang realPtRe t ↔ PointText t := by
  unfold realPtRe; rw [lang_seq_iff]; simp only [lang_ch, digits_iff]
  constructor
  · rintro ⟨a, b, rfl, rfl, h⟩; exact ⟨b, rfl, h⟩
  · rintro ⟨ds, rfl, h⟩; exact ⟨_, ds, rfl, rfl, h⟩
theorem exp_iff {t : List Byte} : Lang realExRe t ↔ ExpText t := by
  unfold realExRe; simp only [lang_seq_iff, lang_alt_iff, lang_ch, digits_iff, sign_iff]
  constructor
  · rintro ⟨a, b, rfl, h, c, d, rfl, h1, h2⟩
    rcases h with h | h <;> rw [h] <;> exact ⟨_, c, d, by simp; rfl, by decide, h1, h2⟩
  · rintro ⟨e, sg, ds, rfl, h, h1, h2⟩
    have : e = BitVec.ofNat 8 101 ∨ e = BitVec.ofNat 8 69 := by
      revert h; revert e; decide +kernel
    exact ⟨[e], sg ++ ds, by simp, by rcases this with h | h <;> simp [h], sg, ds, rfl, h1, h2⟩
theorem name_iff {t : List Byte} : Lang nameRe t ↔ NameText t := by
  unfold nameRe NameText
  rw [lang_alt_iff]
  simp only [lang_seq_iff, lang_cls_iff, lang_star_cls, nameChar_iff, name0_iff, num_iff, name1_iff]
  constructor
  · rintro (⟨a, b, rfl, ⟨c, rfl, h1⟩, h2⟩ | ⟨a, b, rfl, ⟨c, rfl, h1⟩, e, f, rfl, ⟨d, rfl, h2⟩, h3⟩)
    · exact Or.inl ⟨c, b, rfl, h1, h2⟩
    · exact Or.inr ⟨c, d, f, rfl, h1, h2.1, h2.2, h3⟩
  · rintro (⟨c, u, rfl, h1, h2⟩ | ⟨c, d, u, rfl, h1, h2, h3, h4⟩)
    · exact Or.inl ⟨[c], u, rfl, ⟨c, rfl, h1⟩, h2⟩
    · exact Or.inr ⟨[c], d :: u, rfl, ⟨c, rfl, h1⟩, [d], u, rfl, ⟨d, rfl, h2, h3⟩, h4⟩
theorem symbol_iff {t : List Byte} : Lang symbolRe t ↔ SymbolText t := by
  unfold symbolRe opt SymbolText
  simp only [lang_seq_iff, lang_alt_iff, lang_eps_iff, lang_ch, name_iff]
  constructor
  · rintro ⟨a, b, rfl, rfl | ⟨c, d, rfl, h1, rfl⟩, h2⟩
    · exact Or.inl h2
    · exact Or.inr ⟨c, b, rfl, h1, h2⟩
  · rintro (h | ⟨p, n, rfl, h1, h2⟩)
    · exact ⟨[], t, rfl, Or.inl rfl, h⟩
    · exact ⟨p ++ ascii "/", n, rfl, Or.inr ⟨p, _, rfl, h1, rfl⟩, h2⟩
theorem integer_iff {t : List Byte} : Lang integerRe t ↔ TokenText .integer t := by
  have h1 : ∀ b : Byte, decide (49#8 ≤ b ∧ b ≤ 57#8) = true ↔ oneOf "123456789" b := by decide +kernel
  unfold integerRe TokenText
  simp only [lang_seq_iff, lang_alt_iff, lang_ch, sign_iff, digitRe, lang_star_cls, lang_cls_iff, digit_iff, h1]
  constructor
  · rintro ⟨a, b, rfl, h, rfl | ⟨c, d, rfl, ⟨e, rfl, h2⟩, h3⟩⟩
    · exact ⟨a, _, rfl, h, Or.inl rfl⟩
    · exact ⟨a, _, rfl, h, Or.inr ⟨e, d, rfl, h2, h3⟩⟩
  · rintro ⟨sg, ds, rfl, h, rfl | ⟨d, u, rfl, h2, h3⟩⟩
    · exact ⟨sg, _, rfl, h, Or.inl rfl⟩
    · exact ⟨sg, _, rfl, h, Or.inr ⟨[d], u, rfl, ⟨d, rfl, h2⟩, h3⟩⟩
theorem real_iff {t : List Byte} : Lang realRe t ↔ TokenText .real t := by
  unfold realRe TokenText
  simp only [lang_seq_iff, lang_alt_iff, sign_iff, digits_iff, point_iff, exp_iff]
  constructor
  · rintro ⟨a, b, rfl, h, c, d, rfl, h2, h3⟩
    exact ⟨a, c, d, by simp, h, h2, h3⟩
  · rintro ⟨a, c, d, rfl, h, h2, h3⟩
    exact ⟨a, c ++ d, by simp, h, c, d, rfl, h2, h3⟩
theorem string_iff {t : List Byte} : Lang stringRe t ↔ TokenText .string t := by
  have h1 : ∀ b : Byte, (!(b == 34#8 || b == 39#8)) = true ↔ ¬ oneOf "\"'" b := by decide +kernel
  have h2 : ∀ b : Byte, (b == 116#8 || b == 110#8 || b == 114#8 || b == 92#8 || b == 34#8 || b == 39#8) = true ↔
      oneOf "tnr\\\"'" b := by decide +kernel
  have hp : ∀ p, Lang (.alt (.cls (fun b => !(b == 34#8 || b == 39#8)))
      (.seq (ch 92) (.cls (fun b => b == 116#8 || b == 110#8 || b == 114#8 || b == 92#8 || b == 34#8 || b == 39#8)))) p ↔
      StringPiece p := by
    intro p
    simp only [lang_seq_iff, lang_alt_iff, lang_ch, lang_cls_iff, h1, h2, StringPiece]
    constructor
    · rintro (h | ⟨a, b, rfl, rfl, c, rfl, h⟩)
      · exact Or.inl h
      · exact Or.inr ⟨c, rfl, h⟩
    · rintro (h | ⟨c, rfl, h⟩)
      · exact Or.inl h
      · exact Or.inr ⟨_, [c], rfl, rfl, c, rfl, h⟩
  unfold stringRe TokenText
  simp only [lang_seq_iff, lang_ch, lang_star_iff, hp]
  constructor
  · rintro ⟨a, b, rfl, rfl, c, d, rfl, ⟨ps, rfl, h⟩, rfl⟩
    exact ⟨ps, by simp [ascii], h⟩
  · rintro ⟨ps, rfl, h⟩
    exact ⟨[34#8], ps.flatten ++ [34#8], by simp [ascii], rfl, _, _, rfl, ⟨ps, rfl, h⟩, rfl⟩
theorem comment_iff {t : List Byte} : Lang commentRe t ↔ TokenText .comment t := by
  have h1 : ∀ b : Byte, (!(b == 10#8)) = true ↔ ¬ oneOf "\n" b := by decide +kernel
  unfold commentRe TokenText
  simp only [lang_seq_iff, lang_ch, lang_star_cls, h1]
  constructor
  · rintro ⟨a, b, rfl, rfl, c, d, rfl, h, rfl⟩
    exact ⟨c, by simp [ascii], h⟩
  · rintro ⟨u, rfl, h⟩
    exact ⟨[59#8], u ++ [10#8], by simp [ascii], rfl, _, _, rfl, h, rfl⟩

theorem rule_iff : ∀ q ∈ rules, ∀ t, Lang q.2 t ↔ TokenText q.1 t := by
  intro q hq t
  simp only [rules, List.mem_cons, List.not_mem_nil, or_false] at hq
  rcases hq with rfl | rfl | rfl | rfl | rfl | rfl | rfl | rfl | rfl | rfl | rfl | rfl | rfl | rfl | rfl | rfl
  · exact lang_lit
  · exact lang_lit
  · exact lang_lit
  · exact real_iff
  · exact integer_iff
  · exact lang_ch
  · exact lang_ch
  · exact lang_ch
  · exact lang_ch
  · exact lang_ch
  · exact lang_ch
  · show Lang keywordRe t ↔ _
    unfold keywordRe TokenText
    rw [lang_seq_iff]; simp only [lang_ch, symbol_iff]
    constructor
    · rintro ⟨a, b, rfl, rfl, h⟩; exact ⟨b, rfl, h⟩
    · rintro ⟨b, rfl, h⟩; exact ⟨_, b, rfl, rfl, h⟩
  · exact symbol_iff
  · exact string_iff
  · show Lang wsRe t ↔ _
    unfold wsRe TokenText
    rw [lang_plus_cls]; simp only [ws_iff]
  · exact comment_iff

theorem order_eq : rules.map (·.1) = tokenOrder := rfl

theorem longest_iff {s : List Byte} {r : Rule} {n : Nat} : Longest rules s r n ↔ Munch s r n := by
  constructor
  · rintro ⟨h1, h2, ⟨i, re, h3, h4, h5⟩, h6⟩
    have hm : (r, re) ∈ rules := List.mem_of_getElem? h3
    refine ⟨h1, h2, (rule_iff _ hm _).mp h4, ⟨i, ?_, ?_⟩, ?_⟩
    · rw [← order_eq, List.getElem?_map, h3]; rfl
    · intro j q hj hq
      rw [← order_eq, List.getElem?_map] at hq
      obtain ⟨q', hq', rfl⟩ := Option.map_eq_some_iff.mp hq
      intro hc
      exact h5 j q' hj hq' ((rule_iff _ (List.mem_of_getElem? hq') _).mpr hc)
    · intro m q hm1 hm2 hc
      have hq : ∃ re, (q, re) ∈ rules := by cases q <;> simp [rules]
      obtain ⟨re, hq⟩ := hq
      exact h6 m _ hm1 hm2 hq ((rule_iff _ hq _).mpr hc)
  · rintro ⟨h1, h2, h3, ⟨i, h4, h5⟩, h6⟩
    rw [← order_eq, List.getElem?_map] at h4
    obtain ⟨q', hq', rfl⟩ := Option.map_eq_some_iff.mp h4
    refine ⟨h1, h2, ⟨i, q'.2, hq', (rule_iff _ (List.mem_of_getElem? hq') _).mpr h3, ?_⟩, ?_⟩
    · intro j q hj hq hc
      exact h5 j q.1 hj (by rw [← order_eq, List.getElem?_map, hq]; rfl)
        ((rule_iff _ (List.mem_of_getElem? hq) _).mp hc)
    · intro m q hm1 hm2 hq hc
      exact h6 m q.1 hm1 hm2 ((rule_iff _ hq _).mp hc)

theorem noMatch_iff {s : List Byte} : NoMatch rules s ↔ NoToken s := by
  constructor
  · intro h m r hm1 hm2 hc
    have hq : ∃ re, (r, re) ∈ rules := by cases r <;> simp [rules]
    obtain ⟨re, hq⟩ := hq
    exact h m _ hm1 hm2 hq ((rule_iff _ hq _).mpr hc)
  · intro h m q hm1 hm2 hq hc
    exact h m q.1 hm1 hm2 ((rule_iff _ hq _).mp hc)

theorem lexemes_iff {s : List Byte} {ls rest} : Lexemes s ls rest ↔ Chunks s ls rest := by
  constructor
  · intro h
    induction h with
    | done h => exact .done (noMatch_iff.mp h)
    | step h _ ih => exact .step (longest_iff.mp h) ih
  · intro h
    induction h with
    | done h => exact .done (noMatch_iff.mpr h)
    | step h _ ih => exact .step (longest_iff.mpr h) ih

end Ab.Edn
