import Verif.Proof.EdnLexer2
import Verif.Model.EdnParser
import Verif.Props.LineInfo
/-! Tokens and positions, line breaks, and what the lexer drops. -/
namespace Ab.Edn

open Spec Re

theorem toks_tokensOf {L : Lib} : ∀ {ls : List (Rule × List Byte)} {pos : Nat} {ts : List Token},
    toks L pos ls = .ok ts → TokensOf L pos ls ts
  | [], pos, ts, h => by injection h with h; exact h.symm
  | (r, t) :: ls, pos, ts, h => by
    simp only [toks] at h
    obtain ⟨k, hk, h⟩ := Outcome.bind_eq_ok.mp h
    obtain ⟨ts', ht, h⟩ := Outcome.bind_eq_ok.mp h
    have ih := toks_tokensOf ht
    unfold TokensOf
    cases k with
    | none =>
      rw [if_pos (tokenOf_none.mp hk)]
      injection h with h; subst h; exact ih
    | some k =>
      rw [if_neg (fun hs => by rw [tokenOf_skip hs] at hk; injection hk with hk; cases hk)]
      injection h with h
      exact ⟨k, ts', h.symm, hk, ih⟩

/-- A token comes from a lexeme. -/
theorem tokensOf_mem {L : Lib} : ∀ {ls : List (Rule × List Byte)} {pos : Nat} {ts : List Token} {tok : Token},
    TokensOf L pos ls ts → tok ∈ ts → ∃ r, (r, tok.text) ∈ ls ∧ tokenOf L r tok.text = .ok (some tok.kind)
  | [], pos, ts, tok, h, hm => by
    unfold TokensOf at h; subst h; cases hm
  | (r, t) :: ls, pos, ts, tok, h, hm => by
    unfold TokensOf at h
    split at h
    · obtain ⟨r', h1, h2⟩ := tokensOf_mem h hm
      exact ⟨r', List.mem_cons_of_mem _ h1, h2⟩
    · obtain ⟨k, ts', rfl, hk, h⟩ := h
      rcases List.mem_cons.mp hm with hm | hm
      · subst hm; exact ⟨r, List.mem_cons_self, hk⟩
      · obtain ⟨r', h1, h2⟩ := tokensOf_mem h hm
        exact ⟨r', List.mem_cons_of_mem _ h1, h2⟩

/-- A lexeme matches its rule. -/
theorem lexemes_mem {s : List Byte} {ls rest} (h : Lexemes s ls rest) :
    ∀ l ∈ ls, ∃ re, (l.1, re) ∈ rules ∧ Lang re l.2 := by
  induction h with
  | done => intro l hl; cases hl
  | step hl _ ih =>
    intro l hm
    rcases List.mem_cons.mp hm with hm | hm
    · subst hm
      obtain ⟨i, r, h1, h2, -⟩ := hl.first
      exact ⟨r, List.mem_of_getElem? h1, h2⟩
    · exact ih l hm

theorem rule_unique {k : Rule} {re : Re} (h : (k, re) ∈ rules) :
    rules.find? (fun q => q.1 == k) = some (k, re) := by
  simp only [rules, List.mem_cons, List.not_mem_nil, or_false] at h
  rcases h with h | h | h | h | h | h | h | h | h | h | h | h | h | h | h | h <;>
    (injection h with h1 h2; subst h1; subst h2; rfl)

theorem integer_rule {re : Re} (h : (Rule.integer, re) ∈ rules) : re = integerRe := by
  have := rule_unique h
  injection this with this; injection this with _ this; exact this.symm

/-- Text of a token: the slice of the source it says it is. -/
theorem tokensOf_slice {L : Lib} : ∀ {ls : List (Rule × List Byte)} {pre : List Byte} {ts : List Token}
    (post : List Byte) {tok : Token}, TokensOf L pre.length ls ts → tok ∈ ts →
    pre.length ≤ tok.lo ∧ tok.hi ≤ (pre ++ (ls.map (·.2)).flatten).length ∧
    tok.hi = tok.lo + tok.text.length ∧
    ((pre ++ (ls.map (·.2)).flatten ++ post).drop tok.lo).take tok.text.length = tok.text
  | [], pre, ts, post, tok, h, hm => by
    unfold TokensOf at h; subst h; cases hm
  | (r, t) :: ls, pre, ts, post, tok, h, hm => by
    have hlen : (pre ++ t).length = pre.length + t.length := by simp
    have hcat : pre ++ (List.map (·.2) ((r, t) :: ls)).flatten = (pre ++ t) ++ (ls.map (·.2)).flatten := by
      simp
    have hrec : ∀ {ts'}, TokensOf L (pre.length + t.length) ls ts' → tok ∈ ts' →
        (pre ++ t).length ≤ tok.lo ∧ tok.hi ≤ ((pre ++ t) ++ (ls.map (·.2)).flatten).length ∧
        tok.hi = tok.lo + tok.text.length ∧
        (((pre ++ t) ++ (ls.map (·.2)).flatten ++ post).drop tok.lo).take tok.text.length = tok.text := by
      intro ts' h hm
      rw [← hlen] at h
      exact tokensOf_slice post h hm
    unfold TokensOf at h
    split at h
    · obtain ⟨h1, h2, h3, h4⟩ := hrec h hm
      rw [hcat]
      exact ⟨by omega, h2, h3, h4⟩
    · obtain ⟨k, ts', rfl, hk, h⟩ := h
      rcases List.mem_cons.mp hm with hm | hm
      · subst hm
        refine ⟨Nat.le_refl _, by simp, rfl, ?_⟩
        simp
      · obtain ⟨h1, h2, h3, h4⟩ := hrec h hm
        rw [hcat]
        exact ⟨by omega, h2, h3, h4⟩

/-- Tokens do not overlap and are in source order. -/
theorem tokensOf_sorted {L : Lib} : ∀ {ls : List (Rule × List Byte)} {pos : Nat} {ts : List Token},
    TokensOf L pos ls ts → ts.Pairwise (fun a b => a.hi ≤ b.lo) ∧ ∀ t ∈ ts, pos ≤ t.lo
  | [], pos, ts, h => by
    unfold TokensOf at h; subst h; simp
  | (r, t) :: ls, pos, ts, h => by
    unfold TokensOf at h
    split at h
    · obtain ⟨h1, h2⟩ := tokensOf_sorted h
      exact ⟨h1, fun x hx => by have := h2 x hx; omega⟩
    · obtain ⟨k, ts', rfl, hk, h⟩ := h
      obtain ⟨h1, h2⟩ := tokensOf_sorted h
      refine ⟨List.pairwise_cons.mpr ⟨fun x hx => h2 x hx, h1⟩, ?_⟩
      intro x hx
      rcases List.mem_cons.mp hx with hx | hx
      · subst hx; exact Nat.le_refl _
      · have := h2 x hx; omega

/-! ### Cutting the text at a lexeme boundary -/

theorem longest_take {s : List Byte} {r n m} (h : Longest rules s r n) (hm : n ≤ m) :
    Longest rules (s.take m) r n := by
  refine ⟨h.pos, ?_, ?_, ?_⟩
  · rw [List.length_take]; have := h.le; omega
  · obtain ⟨i, re, h1, h2, h3⟩ := h.first
    have he : (s.take m).take n = s.take n := by rw [List.take_take, Nat.min_eq_left hm]
    exact ⟨i, re, h1, by rw [he]; exact h2, fun j q hj hq => by rw [he]; exact h3 j q hj hq⟩
  · intro k q hk hle hq
    rw [List.length_take] at hle
    rw [List.take_take, Nat.min_eq_left (by omega)]
    exact h.longest k q hk (by omega) hq

theorem noMatch_nil : NoMatch rules ([] : List Byte) := by
  intro m q h1 h2; simp at h2; omega

theorem lexemes_cut {s : List Byte} {ls rest} (h : Lexemes s ls rest) :
    Lexemes (ls.map (·.2)).flatten ls [] := by
  induction h with
  | done => exact .done noMatch_nil
  | @step s r n ls rest hl hrec ih =>
    have hs := (lexemes_text hrec).1
    have hlen : (s.take n).length = n := by rw [List.length_take]; exact Nat.min_eq_left hl.le
    have hcut : s.take (n + ((ls.map (·.2)).flatten).length) = s.take n ++ (ls.map (·.2)).flatten := by
      conv => lhs; rw [← List.take_append_drop n s, hs]
      rw [List.take_append, hlen]
      rw [List.take_of_length_le (by omega)]
      congr 1
      rw [show n + ((ls.map (·.2)).flatten).length - n = ((ls.map (·.2)).flatten).length from by omega]
      rw [List.take_append_of_le_length (by omega), List.take_length]
    have h1 := longest_take (m := n + ((ls.map (·.2)).flatten).length) hl (by omega)
    rw [hcut] at h1
    have h2 : (s.take n ++ (ls.map (·.2)).flatten).drop n = (ls.map (·.2)).flatten := by
      rw [List.drop_append, hlen, List.drop_of_length_le (by omega)]; simp
    have h3 : (s.take n ++ (ls.map (·.2)).flatten).take n = s.take n := by
      rw [List.take_append, hlen, List.take_of_length_le (by omega)]; simp
    have := Lexemes.step h1 (by rw [h2]; exact ih)
    rw [h3] at this
    simpa using this

/-! ### Line breaks -/

theorem mem_newlines : ∀ {t : List Byte} {pos p : Nat},
    p ∈ newlines pos t ↔ ∃ i, t[i]? = some 10#8 ∧ p = pos + i + 1
  | [], pos, p => by simp [newlines]
  | b :: bs, pos, p => by
    have ih := @mem_newlines bs (pos + 1) p
    simp only [newlines]
    constructor
    · intro h
      split at h
      · rename_i hb
        rcases List.mem_cons.mp h with h | h
        · exact ⟨0, by simp [hb], by omega⟩
        · obtain ⟨i, h1, h2⟩ := ih.mp h
          exact ⟨i + 1, by simpa using h1, by omega⟩
      · obtain ⟨i, h1, h2⟩ := ih.mp h
        exact ⟨i + 1, by simpa using h1, by omega⟩
    · rintro ⟨i, h1, h2⟩
      cases i with
      | zero =>
        simp at h1
        rw [if_pos h1]
        exact List.mem_cons.mpr (Or.inl (by omega))
      | succ i =>
        have := ih.mpr ⟨i, by simpa using h1, by omega⟩
        split
        · exact List.mem_cons_of_mem _ this
        · exact this

theorem newlines_append : ∀ (a b : List Byte) (pos : Nat),
    newlines pos (a ++ b) = newlines pos a ++ newlines (pos + a.length) b
  | [], b, pos => by simp [newlines]
  | x :: a, b, pos => by
    simp only [List.cons_append, newlines, newlines_append a b (pos + 1), List.length_cons]
    have : pos + 1 + a.length = pos + (a.length + 1) := by omega
    rw [this]
    split <;> simp

theorem newlines_sorted : ∀ (t : List Byte) (pos : Nat), (newlines pos t).Pairwise (· < ·)
  | [], pos => by simp [newlines]
  | b :: bs, pos => by
    simp only [newlines]
    split
    · refine List.pairwise_cons.mpr ⟨?_, newlines_sorted bs (pos + 1)⟩
      intro p hp
      obtain ⟨i, -, h⟩ := mem_newlines.mp hp
      omega
    · exact newlines_sorted bs (pos + 1)

theorem newlines_none {t : List Byte} (h : 10#8 ∉ t) (pos : Nat) : newlines pos t = [] := by
  induction t generalizing pos with
  | nil => rfl
  | cons b bs ih =>
    simp only [newlines]
    rw [if_neg (fun hb => h (by simp [hb]))]
    exact ih (fun hh => h (by simp [hh])) _

/-- Only strings, whitespace and comments can contain a newline. -/
theorem newline_rules {k : Rule} {re : Re} (h : (k, re) ∈ rules) (hu : uses re 10#8 = true) :
    k = .string ∨ IsSkip k := by
  simp only [rules, List.mem_cons, List.not_mem_nil, or_false] at h
  rcases h with h | h | h | h | h | h | h | h | h | h | h | h | h | h | h | h <;>
    (injection h with h1 h2; subst h1; subst h2; first | (left; rfl) | (right; decide) | (revert hu; decide))

theorem steps_breaks : ∀ (ls : List (Rule × List Byte)) (l : Lex),
    (∀ x ∈ ls, ∃ re, (x.1, re) ∈ rules ∧ Lang re x.2) → (∀ x ∈ ls, x.1 = .string → 10#8 ∉ x.2) →
    (steps l ls).breaks = l.breaks ++ newlines l.pos (ls.map (·.2)).flatten ∧
    (steps l ls).pos = l.pos + ((ls.map (·.2)).flatten).length
  | [], l, _, _ => by simp [steps, newlines]
  | (r, t) :: ls, l, hm, hs => by
    obtain ⟨h1, h2⟩ := steps_breaks ls (step1 l r t) (fun x hx => hm x (List.mem_cons_of_mem _ hx))
      (fun x hx => hs x (List.mem_cons_of_mem _ hx))
    obtain ⟨re, hr1, hr2⟩ := hm (r, t) List.mem_cons_self
    have hb : (step1 l r t).breaks = l.breaks ++ newlines l.pos t := by
      show (if IsSkip r then l.breaks ++ newlines l.pos t else l.breaks) = _
      split
      · rfl
      · rename_i hns
        rw [newlines_none, List.append_nil]
        intro hin
        rcases newline_rules hr1 (lang_uses hr2 _ hin) with h | h
        · exact hs (r, t) List.mem_cons_self h hin
        · exact hns h
    have hp : (step1 l r t).pos = l.pos + t.length := rfl
    rw [hb, hp] at h1
    rw [hp] at h2
    simp only [steps, List.map_cons, List.flatten_cons, newlines_append, List.length_append]
    exact ⟨by rw [h1, List.append_assoc], by rw [h2]; omega⟩

theorem endOf_breaks (l : Lex) : (endOf l).breaks = l.breaks := by
  unfold endOf; split <;> rfl

end Ab.Edn
