import Verif.Model.Token
import Verif.Spec.EdnTokens
import Verif.Props.EdnDouble
/-! Property theorems C101 (comparing tokens) and C102 (the text of a token). -/
namespace Ab.Edn

open Spec

/-- The tokens of a text, the pieces they are made of, and the place where the end token stands. -/
theorem rawTokens_ok {L : Lib} {s : List Byte} {rs : List RawToken} (h : rawTokens L s = .ok rs) :
    ∃ ts l, lex L s = .ok (ts, l) ∧ rs = ts.map Token.raw ++ [endToken l.pos] := by
  unfold rawTokens at h
  obtain ⟨⟨ts, l⟩, h1, h2⟩ := Outcome.bind_eq_ok.1 h
  injection h2 with h2
  exact ⟨ts, l, h1, h2.symm⟩

theorem raw_lo (t : Token) : t.raw.lo = t.lo := by unfold Token.raw; split <;> rfl
theorem raw_hi (t : Token) : t.raw.hi = t.hi := by unfold Token.raw; split <;> rfl
theorem raw_kind (t : Token) : t.raw.kind ≠ .end_ ∧ t.raw.kind ≠ .uninitialized ∧ t.raw.kind ≠ .delimiter ∧
    t.raw.kind ≠ .hash := by
  unfold Token.raw; split <;> simp

theorem tokens_nonempty {L : Lib} {pos : Nat} {ls : List (Rule × List Byte)} {ts : List Token} (h : Tokens L pos ls ts)
    (hne : ∀ x ∈ ls, x.2 ≠ []) : ∀ t ∈ ts, t.text ≠ [] := by
  induction h with
  | nil => intro t ht; cases ht
  | skip _ _ ih => exact ih (fun x hx => hne x (by simp [hx]))
  | token _ _ ih =>
    intro t ht
    rcases List.mem_cons.1 ht with rfl | ht
    · exact hne (_, _) (List.mem_cons_self ..)
    · exact ih (fun x hx => hne x (by simp [hx])) t ht

theorem chunks_nonempty {s : List Byte} {ls : List (Rule × List Byte)} {rest : List Byte} (h : Chunks s ls rest) :
    ∀ x ∈ ls, x.2 ≠ [] := by
  induction h with
  | done => intro x hx; cases hx
  | step hm _ ih =>
    intro x hx
    rcases List.mem_cons.1 hx with rfl | hx
    · have h1 := hm.pos
      have h2 := hm.le
      intro he
      have := congrArg List.length he
      simp only [List.length_take, List.length_nil] at this
      omega
    · exact ih x hx

/-- A token and what is its place. -/
theorem lexed_places {L : Lib} {s : List Byte} {ts : List Token} {l : Lex} (h : lex L s = .ok (ts, l)) :
    (∀ t ∈ ts, t.lo < t.hi ∧ t.hi ≤ s.length ∧ (s.drop t.lo).take (t.hi - t.lo) = t.text) ∧
      ts.Pairwise (fun a b => a.hi ≤ b.lo) := by
  obtain ⟨ls, rest, hc, _, _, _, _, hts⟩ := C50_tokens_are_longest_matches L s
  obtain ⟨h1, h2, h3⟩ := hts ts l h
  refine ⟨fun t ht => ?_, h3⟩
  obtain ⟨g1, g2, g3⟩ := h2 t ht
  have := tokens_nonempty h1 (chunks_nonempty hc) t ht
  have : 0 < t.text.length := List.length_pos_iff.2 this
  refine ⟨by omega, g3, ?_⟩
  rw [show t.hi - t.lo = t.text.length by omega, g1]

/-- The same kind, the same place and, for numbers and booleans, the same value. -/
def SameToken (a b : RawToken) : Prop :=
  a.kind = b.kind ∧ a.lo = b.lo ∧ a.hi = b.hi ∧ (a.kind = .integer → a.data = b.data) ∧ (a.kind = .bool → a.data = b.data) ∧
    (a.kind = .real → SameDouble a.data b.data ∧ ¬ IsNaN a.data)

/-- **C101**: comparing never fails for tokens the lexer gave, of one text or of two: the outcome is that of comparing kind, place
and, for numbers and booleans, the value. -/
theorem C101_compare_exact (L : Lib) (s s' : List Byte) (rs rs' : List RawToken) (h : rawTokens L s = .ok rs)
    (h' : rawTokens L s' = .ok rs') (a b : RawToken) (ha : a ∈ rs) (hb : b ∈ rs') :
    ∃ r, a.eq b = .ok r ∧ a.ne b = .ok (!r) ∧ (r = true ↔ SameToken a b) := by
  suffices hs : ∃ r, a.eq b = .ok r ∧ (r = true ↔ SameToken a b) by
    obtain ⟨r, h1, h2⟩ := hs
    exact ⟨r, h1, by rw [RawToken.ne, h1]; rfl, h2⟩
  obtain ⟨ts, l, h1, rfl⟩ := rawTokens_ok h
  obtain ⟨ts', l', h1', rfl⟩ := rawTokens_ok h'
  have hk : a.kind ≠ .uninitialized ∧ a.kind ≠ .delimiter ∧ a.kind ≠ .hash := by
    rcases List.mem_append.1 ha with ha | ha
    · obtain ⟨t, _, rfl⟩ := List.mem_map.1 ha
      exact (raw_kind t).2
    · simp only [List.mem_singleton] at ha; subst ha; simp [endToken]
  have hbool : ∀ {x : RawToken} {ts : List Token} {p : Nat}, x ∈ ts.map Token.raw ++ [endToken p] → x.kind = .bool →
      x.data = 0#64 ∨ x.data = 1#64 := by
    intro x ts p hx hk
    rcases List.mem_append.1 hx with hx | hx
    · obtain ⟨t, _, rfl⟩ := List.mem_map.1 hx
      revert hk
      unfold Token.raw
      split <;> simp
    · simp only [List.mem_singleton] at hx; subst hx; simp [endToken] at hk
  have hba := hbool ha
  have hbb := hbool hb
  obtain ⟨ka, la, ua, da⟩ := a
  obtain ⟨kb, lb, ub, db⟩ := b
  simp only at hk hba hbb
  unfold RawToken.eq SameToken
  simp only
  by_cases hkk : ka = kb
  · subst hkk
    rw [if_neg (by simp)]
    by_cases hp : la = lb ∧ ua = ub
    · rw [if_neg (by simpa using hp)]
      obtain ⟨rfl, rfl⟩ := hp
      cases ka
      case integer => exact ⟨_, rfl, by simp⟩
      case real =>
        refine ⟨_, rfl, ?_⟩
        simp only [true_and, reduceCtorEq, false_implies, forall_const]
        constructor
        · intro h
          refine ⟨dblEq_same h, fun hn => ?_⟩
          rw [dblEq, (isNaN_iff _).2 hn] at h
          simp at h
        · exact fun h => same_dblEq h.1 (isNaN_false h.2)
      case bool =>
        refine ⟨_, rfl, ?_⟩
        rcases hba rfl with e1 | e1 <;> rcases hbb rfl with e2 | e2 <;> rw [e1, e2] <;> simp
      case uninitialized => exact absurd rfl hk.1
      case delimiter => exact absurd rfl hk.2.1
      case hash => exact absurd rfl hk.2.2
      all_goals exact ⟨_, rfl, by simp⟩
    · rw [if_pos (by simpa using hp)]
      exact ⟨_, rfl, by simp; intro h1 h2; exact absurd ⟨h1, h2⟩ hp⟩
  · rw [if_pos hkk]
    exact ⟨_, rfl, by simp [hkk]⟩

/-- **C101**, full statement: two tokens of a text compare equal exactly when they are the same token. -/
def C101_full : Prop :=
  ∀ (L : Lib), Ieee L.arith → ∀ (s : List Byte) (rs : List RawToken), rawTokens L s = .ok rs →
    ∀ (i j : Nat) (a b : RawToken), rs[i]? = some a → rs[j]? = some b → a.eq b = .ok (decide (i = j))

/-- **C101**, the part that holds: it is so for all tokens but NaNs. -/
theorem C101_same_token_partial (L : Lib) (s : List Byte) (rs : List RawToken) (h : rawTokens L s = .ok rs)
    (i j : Nat) (a b : RawToken) (ha : rs[i]? = some a) (hb : rs[j]? = some b)
    (hn : a.kind = .real → ¬ IsNaN a.data) : a.eq b = .ok (decide (i = j)) := by
  obtain ⟨r, hr, _, hiff⟩ := C101_compare_exact L s s rs rs h h a b (List.mem_of_getElem? ha) (List.mem_of_getElem? hb)
  rw [hr]
  congr 1
  rw [Bool.eq_iff_iff, hiff, decide_eq_true_eq]
  obtain ⟨ts, l, h1, rfl⟩ := rawTokens_ok h
  obtain ⟨hpl, hpw⟩ := lexed_places h1
  constructor
  · intro ⟨e1, e2, e3, _⟩
    have key : ∀ (i j : Nat) (a b : RawToken), i < j → (ts.map Token.raw ++ [endToken l.pos])[i]? = some a →
        (ts.map Token.raw ++ [endToken l.pos])[j]? = some b → a.kind = b.kind → a.lo = b.lo → False := by
      intro i j a b hij ha hb ek el
      by_cases hj : j < ts.length
      · rw [List.getElem?_append_left (by simp; omega), List.getElem?_map, List.getElem?_eq_getElem (by omega)] at ha
        rw [List.getElem?_append_left (by simp; omega), List.getElem?_map, List.getElem?_eq_getElem hj] at hb
        simp only [Option.map_some, Option.some.injEq] at ha hb
        rw [← ha, ← hb, raw_lo, raw_lo] at el
        have := (List.pairwise_iff_getElem.1 hpw) i j (by omega) hj hij
        have := (hpl _ (List.getElem_mem (by omega : i < ts.length))).1
        omega
      · have hj' : j = ts.length := by
          have := (List.getElem?_eq_some_iff.1 hb).1
          simp at this; omega
        rw [List.getElem?_append_left (by simp; omega), List.getElem?_map, List.getElem?_eq_getElem (by omega)] at ha
        rw [List.getElem?_append_right (by simp; omega)] at hb
        simp only [Option.map_some, Option.some.injEq] at ha
        have : b = endToken l.pos := by
          have h0 : j - (ts.map Token.raw).length = 0 := by simp; omega
          rw [h0] at hb
          simpa using hb.symm
        rw [this, ← ha] at ek
        exact (raw_kind _).1 ek
    rcases Nat.lt_trichotomy i j with hij | hij | hij
    · exact (key i j a b hij ha hb e1 e2).elim
    · exact hij
    · exact (key j i b a hij hb ha e1.symm e2.symm).elim
  · rintro rfl
    rw [ha] at hb
    injection hb with hb
    subst hb
    exact ⟨rfl, rfl, rfl, fun _ => rfl, fun _ => rfl, fun hr => ⟨Or.inl rfl, hn hr⟩⟩

/-- A library whose arithmetic has infinities and NaNs. -/
def toyLib : Lib := { demo with arith := toyArith }

/-- The outcome of comparing the first token of a text with itself. -/
def firstEqSelf (L : Lib) (s : List Byte) : Outcome Bool := do
  match ← rawTokens L s with
  | a :: _ => a.eq a
  | [] => .ok true

/-- **C101**, the full statement is false of the code: the token of `0e309` differs from itself (C100). -/
theorem C101_negation : ¬ C101_full := by
  intro h
  have hx : firstEqSelf toyLib (ascii "0e309") = .ok false := by decide +kernel
  unfold firstEqSelf at hx
  cases hr : rawTokens toyLib (ascii "0e309") with
  | ok rs =>
    rw [hr, Outcome.ok_bind] at hx
    cases rs with
    | nil => cases hx
    | cons a rs =>
      simp only at hx
      have := h toyLib toy_ieee _ _ hr 0 0 a a rfl rfl
      rw [this] at hx
      cases hx
  | _ => rw [hr] at hx; cases hx

/-- Tokens of different texts at the same place: the symbols `a` and `b` compare equal, 1 and 2 do not. -/
theorem C101_other_texts : ∃ a b c d, rawTokens demo (ascii "a") = .ok [a, endToken 1] ∧
    rawTokens demo (ascii "b") = .ok [b, endToken 1] ∧ rawTokens demo (ascii "1") = .ok [c, endToken 1] ∧
    rawTokens demo (ascii "2") = .ok [d, endToken 1] ∧ a.eq b = .ok true ∧ c.eq d = .ok false := by
  refine ⟨⟨.symbol, 0, 1, 0⟩, ⟨.symbol, 0, 1, 0⟩, ⟨.integer, 0, 1, 1⟩, ⟨.integer, 0, 1, 2⟩, ?_, ?_, ?_, ?_, ?_, ?_⟩ <;>
    decide +kernel

example : ∃ rs, rawTokens demo (ascii "(a nil 1.5)") = .ok rs ∧ rs.length = 6 := ⟨_, rfl, by decide +kernel⟩

/-! ### The text of a token -/

theorem steps_place {s : List Byte} : ∀ (ls : List (Rule × List Byte)) (l : Lex) (rest : List Byte),
    l.rest = (ls.map (·.2)).flatten ++ rest → l.pos + l.rest.length = s.length →
    (steps l ls).pos + (steps l ls).rest.length = s.length ∧ (steps l ls).rest = rest
  | [], l, rest, h, hp => ⟨hp, by simpa [steps] using h⟩
  | (r, t) :: ls, l, rest, h, hp => by
    rw [steps]
    have h' : l.rest = t ++ ((ls.map (·.2)).flatten ++ rest) := by simpa using h
    have hd : (step1 l r t).rest = (ls.map (·.2)).flatten ++ rest := by
      show l.rest.drop t.length = _
      rw [h', List.drop_left]
    refine steps_place ls _ rest hd ?_
    have : (step1 l r t).pos = l.pos + t.length := rfl
    rw [hd, this, ← hp, h']
    simp only [List.length_append]
    omega

theorem endOf_place {s : List Byte} {l : Lex} (h : l.pos + l.rest.length = s.length) : (endOf l).pos ≤ s.length := by
  unfold endOf
  split
  · omega
  · have := (Re.scan_spec rules l.rest).2.1
    dsimp only
    omega

/-- The end token stands in the text or at its end. -/
theorem end_place {L : Lib} {s : List Byte} {ts : List Token} {l : Lex} (h : lex L s = .ok (ts, l)) : l.pos ≤ s.length := by
  obtain ⟨ls, rest, h0⟩ := lexemes_exists s
  rw [lex_spec L h0] at h
  obtain ⟨ts', _, h2⟩ := Outcome.bind_eq_ok.1 h
  injection h2 with h2
  injection h2 with _ h2
  rw [← h2]
  exact endOf_place (steps_place ls (Lex.start s) rest (lexemes_text h0).1 (by simp [Lex.start])).1

/-- The pieces of a text that are not whitespace or comments. -/
def tokenPieces (ls : List (Rule × List Byte)) : List (List Byte) :=
  (ls.filter (fun x => x.1 ≠ .whitespace ∧ x.1 ≠ .comment)).map (·.2)

theorem tokens_pieces {L : Lib} {pos : Nat} {ls : List (Rule × List Byte)} {ts : List Token} (h : Tokens L pos ls ts) :
    ts.map (·.text) = tokenPieces ls := by
  induction h with
  | nil => rfl
  | skip hs _ ih =>
    rw [ih, tokenPieces, tokenPieces, List.filter_cons_of_neg]
    rcases hs with rfl | rfl <;> simp
  | token hk _ ih =>
    rw [List.map_cons, ih, tokenPieces, tokenPieces, List.filter_cons_of_pos]
    · rfl
    · cases hk <;> simp

theorem strv_in {t : RawToken} {s : List Byte} (h1 : t.lo ≤ t.hi) (h2 : t.hi ≤ s.length) (h3 : s.length < 2^64) :
    t.strv s = .ok ((s.drop t.lo).take (t.hi - t.lo)) := by
  unfold RawToken.strv rangeLength
  rw [if_neg (by omega), Nat.mod_eq_of_lt (show t.hi < 2^64 by omega), Nat.mod_eq_of_lt (show t.lo < 2^64 by omega),
    show 2^64 + t.hi - t.lo = (t.hi - t.lo) + 2^64 by omega, Nat.add_mod_right,
    Nat.mod_eq_of_lt (show t.hi - t.lo < 2^64 by omega)]

/-- **C102**: the texts of the tokens of a text are the pieces it is made of that are not whitespace or comments, in order, and
that of the end token is empty. -/
theorem C102_token_texts (L : Lib) (s : List Byte) (hs : s.length < 2^64) (rs : List RawToken) (h : rawTokens L s = .ok rs) :
    ∃ ls rest, Chunks s ls rest ∧ NoToken rest ∧
      rs.map (·.strv s) = (tokenPieces ls).map Outcome.ok ++ [.ok []] := by
  obtain ⟨ts, l, h1, rfl⟩ := rawTokens_ok h
  obtain ⟨ls, rest, hc, _, _, hn, _, hts⟩ := C50_tokens_are_longest_matches L s
  refine ⟨ls, rest, hc, hn, ?_⟩
  rw [List.map_append, ← tokens_pieces (hts ts l h1).1]
  congr 1
  · rw [List.map_map, List.map_map]
    refine List.map_congr_left fun t ht => ?_
    obtain ⟨g1, g2, g3⟩ := (lexed_places h1).1 t ht
    show t.raw.strv s = .ok t.text
    rw [strv_in (by rw [raw_lo, raw_hi]; omega) (by rw [raw_hi]; omega) hs, raw_lo, raw_hi, g3]
  · have := end_place h1
    simp only [List.map_cons, List.map_nil, List.cons.injEq, and_true]
    rw [strv_in (Nat.le_refl _) this hs]
    simp [endToken]

theorem tokens_carry {L : Lib} {pos : Nat} {ls : List (Rule × List Byte)} {ts : List Token} (h : Tokens L pos ls ts) :
    All2 (Carries L) (significant ls) (ts.map Token.raw) := by
  induction h with
  | nil => exact .nil
  | skip hs _ ih =>
    rw [significant, List.filter_cons_of_neg (by simp [hs])]
    exact ih
  | token hk _ ih =>
    rw [significant, List.filter_cons_of_pos (by cases hk <;> simp [IsSkip])]
    refine .cons ?_ ih
    cases hk with
    | real h1 h2 => exact ⟨rfl, by simp, by simp, by simp, fun _ => ⟨_, _, _, _, h1, rfl⟩⟩
    | integer h1 h2 => exact ⟨rfl, by simp, by simp, fun _ => ⟨_, h1, h2, rfl⟩, by simp⟩
    | _ => exact ⟨rfl, by simp [Token.raw], by simp [Token.raw], by simp, by simp⟩

/-- **C102**: the tokens of a text, in order, are of the kinds of the pieces it is made of that are not whitespace or comments and
carry their values; the last is the end token. -/
theorem C102_token_kinds (L : Lib) (s : List Byte) (rs : List RawToken) (h : rawTokens L s = .ok rs) :
    ∃ ls rest ts e, Chunks s ls rest ∧ rs = ts ++ [e] ∧ e.kind = .end_ ∧ e.lo = e.hi ∧ All2 (Carries L) (significant ls) ts := by
  obtain ⟨ts, l, h1, rfl⟩ := rawTokens_ok h
  obtain ⟨ls, rest, hc, _, _, hn, _, hts⟩ := C50_tokens_are_longest_matches L s
  exact ⟨ls, rest, _, _, hc, rfl, rfl, rfl, tokens_carry (hts ts l h1).1⟩

/-- `(:a true -7 "x")` as token objects. -/
example : ∃ rs, rawTokens demo (ascii "(:a true -7 \"x\")") = .ok rs ∧
    rs.map (fun t => (t.kind, t.data)) = [(.lparen, 0), (.keyword, 0), (.bool, 1), (.integer, -7), (.string, 0), (.rparen, 0),
      (.end_, 0)] := ⟨_, rfl, by decide +kernel⟩

/-- **C102**: over a buffer other than its text, the text of a token is refused exactly when the buffer ends before the token
begins, and otherwise is the part of the buffer at the place of the token. -/
theorem C102_other_buffer (L : Lib) (s : List Byte) (hs : s.length < 2^64) (rs : List RawToken) (h : rawTokens L s = .ok rs)
    (t : RawToken) (ht : t ∈ rs) (buffer : List Byte) :
    (t.strv buffer).isThrow = decide (buffer.length < t.lo) ∧
      (t.lo ≤ buffer.length → ∃ a b c, buffer = a ++ b ++ c ∧ t.strv buffer = .ok b ∧ a.length = t.lo ∧
        b.length = min (t.hi - t.lo) (buffer.length - t.lo)) := by
  have hb : t.lo ≤ t.hi ∧ t.hi ≤ s.length := by
    obtain ⟨ts, l, h1, rfl⟩ := rawTokens_ok h
    rcases List.mem_append.1 ht with ht | ht
    · obtain ⟨t', ht', rfl⟩ := List.mem_map.1 ht
      obtain ⟨g1, g2, _⟩ := (lexed_places h1).1 t' ht'
      rw [raw_lo, raw_hi]; omega
    · simp only [List.mem_singleton] at ht; subst ht
      exact ⟨Nat.le_refl _, end_place h1⟩
  have hl : rangeLength t.lo t.hi = t.hi - t.lo := by
    unfold rangeLength
    rw [Nat.mod_eq_of_lt (show t.hi < 2^64 by omega), Nat.mod_eq_of_lt (show t.lo < 2^64 by omega),
      show 2^64 + t.hi - t.lo = (t.hi - t.lo) + 2^64 by omega, Nat.add_mod_right,
      Nat.mod_eq_of_lt (show t.hi - t.lo < 2^64 by omega)]
  unfold RawToken.strv
  rw [hl]
  by_cases h0 : buffer.length < t.lo
  · rw [if_pos h0]
    exact ⟨by simp [Outcome.isThrow, h0], fun h => by omega⟩
  · rw [if_neg h0]
    refine ⟨by simp [Outcome.isThrow, h0], fun h => ⟨buffer.take t.lo, _, (buffer.drop t.lo).drop (t.hi - t.lo), ?_, rfl, ?_, ?_⟩⟩
    · rw [List.append_assoc, List.take_append_drop, List.take_append_drop]
    · simp; omega
    · simp

example : ∃ rs, rawTokens demo (ascii "(ab ;c\n 12) {{") = .ok rs ∧
    rs.map (·.strv (ascii "(ab ;c\n 12) {{")) = [.ok (ascii "("), .ok (ascii "ab"), .ok (ascii "12"), .ok (ascii ")"),
      .ok (ascii "{"), .ok (ascii "{"), .ok []] := ⟨_, rfl, by decide +kernel⟩

end Ab.Edn
