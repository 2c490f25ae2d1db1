import Verif.Model.TokenText
import Verif.Props.Token
import Std.Data.String.ToInt
/-! C109: the debug text of tokens. -/
namespace Ab.Edn.Text

open Ab.Edn

/-- What is before the first `c` and what is after it. -/
theorem split_at {c : Char} : ∀ {a b r s : List Char}, c ∉ a → c ∉ b → a ++ c :: r = b ++ c :: s → a = b ∧ r = s
  | [], [], _, _, _, _, h => ⟨rfl, (List.cons.inj h).2⟩
  | [], y :: b, _, _, _, hb, h => by
    have := (List.cons.inj h).1; subst this; exact absurd (List.mem_cons_self ..) hb
  | x :: a, [], _, _, ha, _, h => by
    have := (List.cons.inj h).1; subst this; exact absurd (List.mem_cons_self ..) ha
  | x :: a, y :: b, r, s, ha, hb, h => by
    obtain ⟨h1, h2⟩ := List.cons.inj h
    obtain ⟨h3, h4⟩ := split_at (fun h => ha (List.mem_cons_of_mem _ h)) (fun h => hb (List.mem_cons_of_mem _ h)) h2
    exact ⟨by rw [h1, h3], h4⟩

theorem digitsOf_inj {a b : Nat} (h : digitsOf a = digitsOf b) : a = b := Nat.repr_injective (String.toList_injective h)

theorem signedOf_inj {a b : U64} (h : signedOf a = signedOf b) : a = b :=
  BitVec.eq_of_toInt_eq (Int.repr_injective (String.toList_injective h))

theorem digitsOf_digit {n : Nat} {c : Char} (h : c ∈ digitsOf n) : c.isDigit = true := by
  unfold digitsOf at h
  rw [Nat.toList_repr] at h
  exact Nat.isDigit_of_mem_toDigits (by decide) (by decide) h

theorem digitsOf_free {n : Nat} {c : Char} (h : c.isDigit = false) : c ∉ digitsOf n := fun hc => by
  rw [digitsOf_digit hc] at h; cases h

theorem signedOf_free {v : U64} : ' ' ∉ signedOf v := by
  unfold signedOf Int.repr
  split
  · exact digitsOf_free rfl
  · rename_i m _
    intro h
    simp only [String.toList_append] at h
    rcases List.mem_append.1 h with h | h
    · exact absurd h (by decide)
    · exact digitsOf_free (n := m + 1) rfl h

theorem posText_inj {a b : Nat} {r s : List Char} (h : posText a ++ r = posText b ++ s) : a = b ∧ r = s := by
  unfold posText at h
  simp only [List.append_assoc, List.singleton_append] at h
  obtain ⟨h1, h2⟩ := split_at (digitsOf_free rfl) (digitsOf_free rfl) (List.append_cancel_left h)
  exact ⟨digitsOf_inj h1, h2⟩

theorem rangeText_inj {a b c d : Nat} {r s : List Char} (h : rangeText a b ++ r = rangeText c d ++ s) : a = c ∧ b = d ∧ r = s := by
  unfold rangeText at h
  simp only [List.append_assoc, List.cons_append, List.nil_append] at h
  obtain ⟨h1, h2⟩ := posText_inj (List.append_cancel_left h)
  obtain ⟨h3, h4⟩ := posText_inj (List.cons.inj h2).2
  exact ⟨h1, h3, (List.cons.inj h4).2⟩

/-- The first word of a token's text. -/
def word : TokenKind → List Char
  | .uninitialized | .error | .nil | .bool | .delimiter | .hash => "unknown".toList
  | k => k.name

/-- What is between the first word and the place. -/
def middle (real : U64 → List Char) (t : RawToken) : List Char :=
  match t.kind with
  | .integer => ' ' :: signedOf t.data
  | .real => ' ' :: real t.data
  | .uninitialized | .error | .nil | .bool | .delimiter | .hash => ' ' :: digitsOf t.kind.number
  | _ => []

theorem text_eq (real : U64 → List Char) (t : RawToken) :
    t.text real = '(' :: (word t.kind ++ (middle real t ++ ' ' :: (rangeText t.lo t.hi ++ [')']))) := by
  obtain ⟨k, lo, hi, d⟩ := t
  have e1 : "(integer ".toList = '(' :: (TokenKind.integer.name ++ [' ']) := by decide
  have e2 : "(real ".toList = '(' :: (TokenKind.real.name ++ [' ']) := by decide
  have e3 : "(unknown ".toList = '(' :: ("unknown".toList ++ [' ']) := by decide
  unfold RawToken.text
  dsimp only
  rw [e1, e2, e3]
  generalize rangeText lo hi = R
  cases k <;> dsimp only [word, middle] <;>
    simp only [List.append_assoc, List.cons_append, List.nil_append]

theorem word_free (k : TokenKind) : ' ' ∉ word k := by cases k <;> decide

/-- The places for which the first word stands. -/
theorem word_inj {a b : TokenKind} (h : word a = word b) : a = b ∨ word a = "unknown".toList ∧ word b = "unknown".toList := by
  revert h
  cases a <;> cases b <;> decide

theorem number_inj {a b : TokenKind} (h : a.number = b.number) : a = b := by
  revert h
  cases a <;> cases b <;> decide

theorem unknown_middle {real : U64 → List Char} {t : RawToken} (h : word t.kind = "unknown".toList) :
    middle real t = ' ' :: digitsOf t.kind.number := by
  obtain ⟨k, lo, hi, d⟩ := t
  change word k = _ at h
  revert h
  cases k <;> first | (intro _; rfl) | (intro h; exact absurd h (by decide))

/-- C109: the debug text of a token tells its kind, its place and, for an integer, its value, however `double`s are written, as long as
without spaces. -/
theorem C109_text_tells (real : U64 → List Char) (hr : ∀ v, ' ' ∉ real v) (a b : RawToken) (h : a.text real = b.text real) :
    a.kind = b.kind ∧ a.lo = b.lo ∧ a.hi = b.hi ∧ (a.kind = .integer → a.data = b.data) ∧
      (a.kind = .real → real a.data = real b.data) := by
  have tail : ∀ {x y : List Char}, ' ' ∉ x → ' ' ∉ y →
      ' ' :: x ++ ' ' :: (rangeText a.lo a.hi ++ [')']) = ' ' :: y ++ ' ' :: (rangeText b.lo b.hi ++ [')']) →
      x = y ∧ a.lo = b.lo ∧ a.hi = b.hi := by
    intro x y hx hy e
    obtain ⟨e1, e2⟩ := split_at hx hy (List.cons.inj e).2
    obtain ⟨e3, e4, _⟩ := rangeText_inj e2
    exact ⟨e1, e3, e4⟩
  rw [text_eq, text_eq] at h
  have h := (List.cons.inj h).2
  -- after the first word there is a space
  have sp : ∀ (t : RawToken), ∃ r, middle real t ++ ' ' :: (rangeText t.lo t.hi ++ [')']) = ' ' :: r := by
    intro t
    obtain ⟨k, lo, hi, d⟩ := t
    cases k <;> exact ⟨_, rfl⟩
  obtain ⟨ra, ea⟩ := sp a
  obtain ⟨rb, eb⟩ := sp b
  rw [ea, eb] at h
  obtain ⟨hw, hm⟩ := split_at (word_free _) (word_free _) h
  have hm : middle real a ++ ' ' :: (rangeText a.lo a.hi ++ [')']) = middle real b ++ ' ' :: (rangeText b.lo b.hi ++ [')']) := by
    rw [ea, eb, hm]
  rcases word_inj hw with hk | ⟨ua, ub⟩
  · by_cases ia : a.kind = .integer
    · rw [show middle real a = ' ' :: signedOf a.data by rw [middle.eq_def, ia],
        show middle real b = ' ' :: signedOf b.data by rw [middle.eq_def, ← hk, ia]] at hm
      obtain ⟨e1, e2, e3⟩ := tail signedOf_free signedOf_free hm
      exact ⟨hk, e2, e3, fun _ => signedOf_inj e1, fun h => absurd (ia.symm.trans h) (by decide)⟩
    · by_cases ra' : a.kind = .real
      · rw [show middle real a = ' ' :: real a.data by rw [middle.eq_def, ra'],
          show middle real b = ' ' :: real b.data by rw [middle.eq_def, ← hk, ra']] at hm
        obtain ⟨e1, e2, e3⟩ := tail (hr _) (hr _) hm
        exact ⟨hk, e2, e3, fun h => absurd h ia, fun _ => e1⟩
      · have em : middle real a = middle real b := by
          rw [middle.eq_def, middle.eq_def, ← hk]
          cases ek : a.kind <;> first | rfl | exact absurd ek ia | exact absurd ek ra'
        rw [em] at hm
        obtain ⟨e3, e4, _⟩ := rangeText_inj (List.cons.inj (List.append_cancel_left hm)).2
        exact ⟨hk, e3, e4, fun h => absurd h ia, fun h => absurd h ra'⟩
  · rw [unknown_middle ua, unknown_middle ub] at hm
    obtain ⟨e1, e2, e3⟩ := tail (digitsOf_free rfl) (digitsOf_free rfl) hm
    have hk := number_inj (digitsOf_inj e1)
    exact ⟨hk, e2, e3, fun h => by rw [h] at ua; exact absurd ua (by decide), fun h => by rw [h] at ua; exact absurd ua (by decide)⟩

/-- C109: of the tokens of one text, the end token among them, no two have the same debug text. -/
theorem C109_tokens_differ (real : U64 → List Char) (hr : ∀ v, ' ' ∉ real v) (L : Lib) (s : List Byte) (rs : List RawToken)
    (h : rawTokens L s = .ok rs) : rs.Pairwise (fun a b => a.text real ≠ b.text real) := by
  obtain ⟨ts, l, h1, rfl⟩ := rawTokens_ok h
  obtain ⟨hp, ho⟩ := lexed_places h1
  refine List.pairwise_append.2 ⟨?_, by simp, ?_⟩
  · rw [List.pairwise_map]
    refine List.Pairwise.imp_of_mem ?_ ho
    intro a b ha _ hab e
    have := (C109_text_tells real hr _ _ e).2.1
    rw [raw_lo, raw_lo] at this
    have := (hp a ha).1
    omega
  · intro a ha b hb e
    obtain ⟨t, _, rfl⟩ := List.mem_map.1 ha
    have hb : b = endToken l.pos := by simpa using hb
    have := (C109_text_tells real hr _ _ e).1
    rw [hb] at this
    exact (raw_kind t).1 this

/-- C109: and the debug text of a place in line and column, or of a range of them, tells all its numbers. -/
theorem C109_location_tells (l c l' c' : Nat) (r s : List Char) (h : locationText l c ++ r = locationText l' c' ++ s) :
    l = l' ∧ c = c' ∧ r = s := by
  unfold locationText at h
  simp only [List.append_assoc, List.cons_append, List.nil_append] at h
  obtain ⟨h1, h2⟩ := split_at (digitsOf_free rfl) (digitsOf_free rfl) (List.append_cancel_left h)
  obtain ⟨h3, h4⟩ := split_at (digitsOf_free rfl) (digitsOf_free rfl) h2
  exact ⟨digitsOf_inj h1, digitsOf_inj h3, h4⟩

theorem C109_location_range_tells (a b c d a' b' c' d' : Nat) (h : locationRangeText a b c d = locationRangeText a' b' c' d') :
    a = a' ∧ b = b' ∧ c = c' ∧ d = d' := by
  unfold locationRangeText at h
  simp only [List.append_assoc, List.cons_append, List.nil_append] at h
  obtain ⟨h1, h2, h3⟩ := C109_location_tells _ _ _ _ _ _ (List.append_cancel_left h)
  obtain ⟨h4, h5, _⟩ := C109_location_tells _ _ _ _ _ _ (List.cons.inj h3).2
  exact ⟨h1, h2, h4, h5⟩

/-- What a reader of the debug text does not see: `true` and `false` at the same place look the same. -/
example : (⟨.bool, 3, 7, 1#64⟩ : RawToken).text (fun _ => []) = (⟨.bool, 3, 7, 0#64⟩ : RawToken).text (fun _ => []) := by decide +kernel

/-- The debug texts of the tokens of `(-7 a)`. -/
example : (match rawTokens demo [40#8, 45#8, 55#8, 32#8, 97#8, 41#8] with
    | .ok rs => rs.map (RawToken.text (fun _ => []))
    | _ => []) =
  ["(lparen (src-range (src-pos 0) (src-pos 1)))".toList, "(integer -7 (src-range (src-pos 1) (src-pos 3)))".toList,
   "(symbol (src-range (src-pos 4) (src-pos 5)))".toList, "(rparen (src-range (src-pos 5) (src-pos 6)))".toList,
   "(end (src-range (src-pos 6) (src-pos 6)))".toList] := by decide +kernel

end Ab.Edn.Text
