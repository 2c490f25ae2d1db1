import Verif.Spec.Wast
/-! Proofs about the WAST lexer. -/
namespace Ab.Wast
open Spec.Wast

theorem allowed_iff (c : Char) : allowed c = true ↔ WordChar c := by
  unfold allowed WordChar Char.isAlphanum Char.isAlpha Char.isUpper Char.isLower Char.isDigit
  simp only [Bool.or_eq_true, Bool.and_eq_true, decide_eq_true_eq, List.mem_cons, List.not_mem_nil, or_false, Char.le_def,
    ge_iff_le]
  constructor
  · rintro ((((((h | h) | h) | h) | h) | h) | h)
    · exact Or.inl (Or.inr h)
    · exact Or.inl (Or.inl (Or.inl h))
    · exact Or.inl (Or.inl (Or.inr h))
    · exact Or.inr (Or.inl h)
    · exact Or.inr (Or.inr (Or.inl h))
    · exact Or.inr (Or.inr (Or.inr (Or.inl h)))
    · exact Or.inr (Or.inr (Or.inr (Or.inr h)))
  · rintro (((h | h) | h) | h | h | h | h)
    · exact Or.inl (Or.inl (Or.inl (Or.inl (Or.inl (Or.inr h)))))
    · exact Or.inl (Or.inl (Or.inl (Or.inl (Or.inr h))))
    · exact Or.inl (Or.inl (Or.inl (Or.inl (Or.inl (Or.inl h)))))
    · exact Or.inl (Or.inl (Or.inl (Or.inr h)))
    · exact Or.inl (Or.inl (Or.inr h))
    · exact Or.inl (Or.inr h)
    · exact Or.inr h

theorem isSpace_iff (c : Char) : isSpace c = true ↔ Space c := by
  unfold isSpace Space
  simp only [Bool.or_eq_true, decide_eq_true_eq]
  have key : ∀ n : Nat, n.isValidChar → (c = Char.ofNat n ↔ c.toNat = n) := by
    intro n hn
    constructor
    · intro h; rw [h]; simp [Char.toNat, Char.ofNat, hn, Char.ofNatAux]
    · intro h; rw [← h]; exact (Char.ofNat_toNat c).symm
  have h9 : (c = '\t') ↔ c.toNat = 9 := key 9 (by decide)
  have h10 : (c = '\n') ↔ c.toNat = 10 := key 10 (by decide)
  have h11 : (c = Char.ofNat 11) ↔ c.toNat = 11 := key 11 (by decide)
  have h12 : (c = Char.ofNat 12) ↔ c.toNat = 12 := key 12 (by decide)
  have h13 : (c = '\r') ↔ c.toNat = 13 := key 13 (by decide)
  have h32 : (c = ' ') ↔ c.toNat = 32 := key 32 (by decide)
  rw [h9, h10, h11, h12, h13, h32]
  omega

/-! ## Places -/

/-- There is room for `n` more characters in the `int`s of a location. -/
def Room (st : Loc) (n : Nat) : Prop :=
  st.offset + n ≤ 2147483647 ∧ st.line + n ≤ 2147483647 ∧ st.column + n ≤ 2147483647 ∧ 1 + n ≤ 2147483647

theorem place_nil (st : Loc) : place st [] = st := by
  cases st
  simp [place]

theorem place_snoc (st : Loc) (pre : List Char) (c : Char) :
    place st (pre ++ [c]) =
      if c = '\n' then ⟨(place st pre).offset + 1, (place st pre).line + 1, 1⟩
      else ⟨(place st pre).offset + 1, (place st pre).line, (place st pre).column + 1⟩ := by
  by_cases h : c = '\n'
  · subst h
    simp [place, Int.add_assoc]
  · rw [if_neg h]
    simp only [place, List.length_append, List.length_cons, List.length_nil, List.count_append, List.mem_append, List.mem_cons,
      List.not_mem_nil, or_false, List.reverse_append, List.reverse_cons, List.reverse_nil, List.nil_append, List.cons_append]
    have h1 : List.count '\n' [c] = 0 := by simp [h]
    have h2 : ¬ '\n' = c := fun e => h e.symm
    have h3 : (List.takeWhile (fun x => decide (x ≠ '\n')) (c :: pre.reverse)).length
        = (List.takeWhile (fun x => decide (x ≠ '\n')) pre.reverse).length + 1 := by
      rw [List.takeWhile_cons, if_pos (by simp [h])]; rfl
    rw [h1]
    congr 1
    · simp [Int.add_assoc]
    · simp [h2]
      by_cases h4 : '\n' ∈ pre
      · simp only [h4, if_true]
        have := h3
        simp only [ne_eq, decide_not] at this
        rw [this]
        simp [Int.add_assoc]
      · simp [h4, Int.add_assoc]

theorem inc_ok {x : Int} (h : x < 2147483647) : inc x = .ok (x + 1) := by
  unfold inc
  rw [if_neg (by omega)]

theorem place_lt {st : Loc} {pre : List Char} {n : Nat} (hr : Room st n) (hn : pre.length < n) :
    (place st pre).offset < 2147483647 ∧ (place st pre).line < 2147483647 ∧ (place st pre).column < 2147483647 := by
  obtain ⟨h1, h2, h3, h4⟩ := hr
  have hc := List.count_le_length (a := '\n') (l := pre)
  have ht : (pre.reverse.takeWhile (· ≠ '\n')).length ≤ pre.length := by
    have := (List.takeWhile_sublist (p := fun x => decide (x ≠ '\n')) (l := pre.reverse)).length_le
    simpa using this
  refine ⟨?_, ?_, ?_⟩
  · simp only [place]; omega
  · simp only [place]; omega
  · simp only [place]
    split <;> omega

theorem track_place {st : Loc} {pre : List Char} {n : Nat} {s : Lexer} {c : Char} (hr : Room st n) (hn : pre.length < n)
    (hl : s.location = place st pre) : track s c = .ok { s with location := place st (pre ++ [c]) } := by
  obtain ⟨h1, h2, h3⟩ := place_lt hr hn
  unfold track
  rw [hl, inc_ok h1, inc_ok h3, place_snoc]
  simp only [Outcome.ok_bind]
  by_cases h : c = '\n'
  · rw [if_pos h, if_pos h, inc_ok h2]
    rfl
  · rw [if_neg h, if_neg h]

/-! ## Runs inside a lexeme -/

theorem feed_append (text : Nat → List Char) : ∀ (a b : List Char) (s : Lexer) (p : Ptr),
    feed text s p (a ++ b) = (do let s ← feed text s p a; feed text s ⟨p.buf, p.idx + a.length⟩ b)
  | [], b, s, p => rfl
  | c :: a, b, s, p => by
    simp only [List.cons_append, feed]
    cases h : stepChar text s p c with
    | ok s1 =>
      simp only [Outcome.ok_bind]
      rw [feed_append text a b s1]
      simp only [List.length_cons, Nat.add_comm a.length 1, Nat.add_assoc]
    | _ => rfl

/-- Inside a word, an identifier or white space, every further character of the same sort only moves the location. -/
theorem feed_inside (text : Nat → List Char) {st : Loc} {n : Nat} (hr : Room st n) : ∀ (w : List Char) (s : Lexer) (p : Ptr)
    (pre : List Char), pre.length + w.length ≤ n → s.location = place st pre →
    (s.cs = .name ∧ (∀ c ∈ w, allowed c = true) ∨ s.cs = .ident ∧ (∀ c ∈ w, allowed c = true) ∨
      s.cs = .space ∧ ∀ c ∈ w, isSpace c = true) →
    feed text s p w = .ok { s with location := place st (pre ++ w) }
  | [], s, p, pre, _, hl, _ => by
    rw [List.append_nil, ← hl]
    rfl
  | c :: w, s, p, pre, hn, hl, hw => by
    rw [List.length_cons] at hn
    have ht := track_place (c := c) hr (by omega) hl
    have hs : stepChar text s p c = track s c := by
      unfold stepChar
      rcases hw with ⟨e, h⟩ | ⟨e, h⟩ | ⟨e, h⟩ <;> rw [e] <;> simp only <;> rw [if_pos (h c (List.mem_cons_self))]
    rw [feed, hs, ht]
    simp only [Outcome.ok_bind]
    rw [feed_inside text hr w _ _ (pre ++ [c]) (by simp; omega) rfl]
    · simp
    · rcases hw with ⟨e, h⟩ | ⟨e, h⟩ | ⟨e, h⟩
      · exact Or.inl ⟨e, fun x hx => h x (List.mem_cons_of_mem _ hx)⟩
      · exact Or.inr (Or.inl ⟨e, fun x hx => h x (List.mem_cons_of_mem _ hx)⟩)
      · exact Or.inr (Or.inr ⟨e, fun x hx => h x (List.mem_cons_of_mem _ hx)⟩)

/-- The rest of a call: the remaining characters and, if `e`, the end of the file. -/
def run (text : Nat → List Char) (e : Bool) (s : Lexer) (p : Ptr) (tail : List Char) : Outcome Lexer := do
  let s ← feed text s p tail
  if e then finish text s ⟨p.buf, p.idx + tail.length⟩ else .ok s

theorem run_append (text : Nat → List Char) (e : Bool) (a b : List Char) (s s1 : Lexer) (p : Ptr) (h : feed text s p a = .ok s1) :
    run text e s p (a ++ b) = run text e s1 ⟨p.buf, p.idx + a.length⟩ b := by
  unfold run
  rw [feed_append, h]
  simp [Nat.add_assoc]

/-- The tail does not go on with the lexeme the automaton is in. -/
def Ends (s : Lexer) (tail : List Char) : Prop :=
  ∀ c t, tail = c :: t →
    (s.cs = .name ∨ s.cs = .ident) ∧ allowed c = false ∨ (s.cs = .newline ∨ s.cs = .space) ∧ isSpace c = false

theorem finish_start {text : Nat → List Char} {s f : Lexer} {p : Ptr} (h : finish text s p = .ok f)
    (hs : s.cs = .name ∨ s.cs = .ident ∨ s.cs = .newline ∨ s.cs = .space) : f.cs = .start := by
  unfold finish at h
  rcases hs with e | e | e | e <;> rw [e] at h <;> simp only at h
  · unfold finishName at h
    obtain ⟨⟨t, str⟩, _, h⟩ := Outcome.bind_eq_ok.1 h
    cases h; rfl
  · unfold finishIdent at h
    obtain ⟨⟨t, str⟩, _, h⟩ := Outcome.bind_eq_ok.1 h
    cases h; rfl
  · cases h; rfl
  · cases h; rfl

theorem finish_of_start {text : Nat → List Char} {s : Lexer} {p : Ptr} (h : s.cs = .start) : finish text s p = .ok s := by
  unfold finish
  rw [h]

/-- At the end of a lexeme: finish it, then go on. -/
theorem run_ends {text : Nat → List Char} {e : Bool} {s f : Lexer} {p : Ptr} {tail : List Char}
    (hs : s.cs = .name ∨ s.cs = .ident ∨ s.cs = .newline ∨ s.cs = .space)
    (hf : finish text s p = .ok f) (he : Ends s tail) (hne : tail ≠ [] ∨ e = true) : run text e s p tail = run text e f p tail := by
  have hst := finish_start hf hs
  cases tail with
  | nil =>
    rcases hne with hne | hne
    · exact absurd rfl hne
    · subst hne
      show finish text s p = finish text f p
      rw [hf, finish_of_start hst]
  | cons c t =>
    unfold run
    rw [feed, feed]
    have : stepChar text s p c = stepChar text f p c := by
      have h2 : stepChar text f p c = begin f p c := by unfold stepChar; rw [hst]
      rw [h2]
      unfold stepChar
      unfold finish at hf
      rcases he c t rfl with ⟨hk, hc⟩ | ⟨hk, hc⟩
      · rcases hk with e | e <;> rw [e] at hf ⊢ <;> simp only at hf ⊢ <;> rw [if_neg (by simp [hc]), hf] <;> rfl
      · rcases hk with e | e <;> rw [e] at hf ⊢ <;> simp only at hf ⊢ <;> rw [if_neg (by simp [hc])] <;> cases hf <;> rfl
    rw [this]

/-! ## One lexeme -/

theorem fmt_eq (l : Loc) : l.fmt = showPlace l := by
  simp [Loc.fmt, showPlace, String.toList_append]
  rfl

theorem line_lparen (a b : Loc) : line a b .lparen = "(lparen :start ".toList ++ showPlace b ++ ")\n".toList := by
  unfold line; rfl
theorem line_rparen (a b : Loc) : line a b .rparen = "(rparen :start ".toList ++ showPlace b ++ ")\n".toList := by
  unfold line; rfl
theorem line_word (a b : Loc) (s : List Char) : line a b (.word s) =
    "(name ".toList ++ s ++ " :start ".toList ++ showPlace a ++ " :end ".toList ++ showPlace b ++ ")\n".toList := by
  unfold line; rfl
theorem line_ident (a b : Loc) (s : List Char) : line a b (.ident s) =
    "(indentifier $".toList ++ s ++ " :start ".toList ++ showPlace a ++ " :end ".toList ++ showPlace b ++ ")\n".toList := by
  unfold line; rfl
theorem line_space (a b : Loc) (s : List Char) : line a b (.space s) =
    if s = ['\n'] then "(new-line :start)\n".toList else "(whitespace)\n".toList := by
  unfold line; rfl

theorem dollar_eq : "(indentifier $".toList = "(indentifier ".toList ++ ['$'] := by decide

/-- The text of the lexeme is in the buffer at `p`. -/
def Holds (text : Nat → List Char) (p : Ptr) (t : List Char) : Prop :=
  ((text p.buf).drop p.idx).take t.length = t

theorem view_holds {text : Nat → List Char} {p : Ptr} {t : List Char} (h : Holds text p t) :
    view text (some p) ⟨p.buf, p.idx + t.length⟩ = .ok (p, t) := by
  unfold view
  simp only [if_true]
  rw [show p.idx + t.length - p.idx = t.length from by omega, h]

/-- The character goes on with the lexeme. -/
def GoesOn : Lexeme → Char → Prop
  | .word _, c | .ident _, c => WordChar c
  | .space _, c => Space c
  | _, _ => False

theorem not_paren_of_allowed {c : Char} (h : allowed c = true) : c ≠ '(' ∧ c ≠ ')' ∧ c ≠ '$' ∧ c ≠ '\n' ∧ isSpace c = false := by
  refine ⟨?_, ?_, ?_, ?_, ?_⟩
  · rintro rfl; revert h; decide
  · rintro rfl; revert h; decide
  · rintro rfl; revert h; decide
  · rintro rfl; revert h; decide
  · cases hs : isSpace c with
    | false => rfl
    | true =>
      exfalso
      unfold isSpace at hs
      simp only [Bool.or_eq_true, decide_eq_true_eq] at hs
      rcases hs with ((((e | e) | e) | e) | e) | e <;> subst e <;> revert h <;> decide

theorem not_others_of_space {c : Char} (h : isSpace c = true) : c ≠ '(' ∧ c ≠ ')' ∧ c ≠ '$' ∧ allowed c = false := by
  refine ⟨?_, ?_, ?_, ?_⟩
  · rintro rfl; revert h; decide
  · rintro rfl; revert h; decide
  · rintro rfl; revert h; decide
  · cases hs : allowed c with
    | false => rfl
    | true =>
      have := (not_paren_of_allowed hs).2.2.2.2
      rw [this] at h; cases h

/-- What the lexer has done after a lexeme. -/
structure Did (text : Nat → List Char) (st : Loc) (pre : List Char) (ls : List Lexeme) (s f : Lexer) : Prop where
  cs : f.cs = .start
  loc : f.location = place st (pre ++ write ls)
  out : ∃ ts, f.output = s.output ++ ts ∧ ts.map (seen text) = tokens st pre ls
  said : f.printed = s.printed ++ lines st pre ls

theorem write_cons (l : Lexeme) (ls : List Lexeme) : write (l :: ls) = l.text ++ write ls := rfl

theorem write_single (l : Lexeme) : write [l] = l.text := by simp [write]

attribute [local irreducible] String.toList in
theorem run_lexeme (text : Nat → List Char) {st : Loc} {n : Nat} (hr : Room st n) (l : Lexeme) (hv : l.Valid) (s : Lexer) (p : Ptr)
    (pre tail : List Char) (hn : pre.length + l.text.length ≤ n) (hs : s.cs = .start) (hl : s.location = place st pre)
    (ht : Holds text p l.text) (he : ∀ c t, tail = c :: t → ¬ GoesOn l c) (eof : Bool) (hne : tail ≠ [] ∨ eof = true) :
    ∃ f, run text eof s p (l.text ++ tail) = run text eof f ⟨p.buf, p.idx + l.text.length⟩ tail ∧ Did text st pre [l] s f := by
  obtain ⟨cs, ts, start, location, output, printed⟩ := s
  simp only at hs hl
  subst hs
  subst hl
  cases l with
  | lparen =>
    have e : feed text ⟨.start, ts, start, place st pre, output, printed⟩ p ['('] = .ok (restart (emit (print ⟨.start, some p, place st pre, place st (pre ++ ['(']), output, printed⟩
        ("(lparen :start ".toList ++ (place st (pre ++ ['('])).fmt ++ ")\n".toList)) .LPAREN p ⟨p.buf, p.idx + 1⟩)) := by
      simp only [feed, stepChar, begin, if_true]
      rw [track_place (s := markStart ⟨.start, some p, start, place st pre, output, printed⟩) hr (by simp [Lexeme.text] at hn; omega) rfl]
      simp only [Outcome.ok_bind, markStart]
    refine ⟨_, run_append text eof _ tail _ _ p e, rfl, ?_, ⟨_, rfl, ?_⟩, ?_⟩
    · rw [write_single]; rfl
    · simp only [tokens, Lexeme.kind, List.map_cons, List.map_nil, List.append_nil, List.cons.injEq, and_true]
      simp only [seen]
      unfold Holds Lexeme.text at ht
      simp only [List.length_cons, List.length_nil] at ht
      rw [show p.idx + 1 - p.idx = 0 + 1 from by omega, ht]
      rfl
    · simp only [lines, line_lparen, line_rparen, line_word, line_ident, line_space, List.append_nil, ← fmt_eq, restart, emit, print, Lexeme.text]
  | rparen =>
    have e : feed text ⟨.start, ts, start, place st pre, output, printed⟩ p [')'] = .ok (restart (emit (print ⟨.start, some p, place st pre, place st (pre ++ [')']), output, printed⟩
        ("(rparen :start ".toList ++ (place st (pre ++ [')'])).fmt ++ ")\n".toList)) .RPAREN p ⟨p.buf, p.idx + 1⟩)) := by
      simp only [feed, stepChar, begin, if_true]
      rw [if_neg (by decide)]
      rw [track_place (s := markStart ⟨.start, some p, start, place st pre, output, printed⟩) hr (by simp [Lexeme.text] at hn; omega) rfl]
      simp only [Outcome.ok_bind, markStart]
    refine ⟨_, run_append text eof _ tail _ _ p e, rfl, ?_, ⟨_, rfl, ?_⟩, ?_⟩
    · rw [write_single]; rfl
    · simp only [tokens, Lexeme.kind, List.map_cons, List.map_nil, List.append_nil, List.cons.injEq, and_true]
      simp only [seen]
      unfold Holds Lexeme.text at ht
      simp only [List.length_cons, List.length_nil] at ht
      rw [show p.idx + 1 - p.idx = 0 + 1 from by omega, ht]
      rfl
    · simp only [lines, line_lparen, line_rparen, line_word, line_ident, line_space, List.append_nil, ← fmt_eq, restart, emit, print, Lexeme.text]
  | word w =>
    obtain ⟨hv1, hw⟩ := hv
    cases w with
    | nil => exact absurd rfl hv1
    | cons c w =>
      simp only [Lexeme.text] at hn ht ⊢
      have hc := (allowed_iff c).2 (hw c (List.mem_cons_self))
      have hcp := not_paren_of_allowed hc
      have e1 : stepChar text ⟨.start, ts, start, place st pre, output, printed⟩ p c = .ok ⟨.name, some p, place st pre, place st (pre ++ [c]), output, printed⟩ := by
        simp only [stepChar, begin]
        rw [if_neg hcp.1, if_neg hcp.2.1, if_neg hcp.2.2.1, if_pos hc]
        rw [track_place (s := markStart ⟨.start, some p, start, place st pre, output, printed⟩) hr (by simp at hn; omega) rfl]
        simp only [Outcome.ok_bind, markStart]
      have e : feed text ⟨.start, ts, start, place st pre, output, printed⟩ p (c :: w) = .ok ⟨.name, some p, place st pre, place st (pre ++ c :: w), output, printed⟩ := by
        rw [feed, e1]
        simp only [Outcome.ok_bind]
        rw [feed_inside text hr w _ _ (pre ++ [c]) (by simp at hn ⊢; omega) rfl
          (Or.inl ⟨rfl, fun x hx => (allowed_iff x).2 (hw x (List.mem_cons_of_mem _ hx))⟩)]
        simp
      rw [run_append text eof _ tail _ _ p e]
      have hfin : finish text ⟨.name, some p, place st pre, place st (pre ++ c :: w), output, printed⟩
          ⟨p.buf, p.idx + (c :: w).length⟩ = .ok (restart (emit (print ⟨.name, some p, place st pre, place st (pre ++ c :: w), output, printed⟩
            ("(name ".toList ++ (c :: w) ++ " :start ".toList ++ (place st pre).fmt ++ " :end ".toList ++ (place st (pre ++ c :: w)).fmt ++ ")\n".toList))
            .NAME p ⟨p.buf, p.idx + (c :: w).length⟩)) := by
        simp only [finish, finishName]
        rw [view_holds ht]
        simp only [Outcome.ok_bind]
      refine ⟨_, run_ends (Or.inl rfl) hfin ?_ hne, rfl, ?_, ⟨_, rfl, ?_⟩, ?_⟩
      · intro d t hd
        refine Or.inl ⟨Or.inl rfl, ?_⟩
        cases ha : allowed d with
        | false => rfl
        | true => exact absurd ((allowed_iff d).1 ha) (he d t hd)
      · rw [write_single]; rfl
      · simp only [tokens, Lexeme.kind, List.map_cons, List.map_nil, List.append_nil, List.cons.injEq, and_true]
        simp only [seen]
        rw [show p.idx + (c :: w).length - p.idx = (c :: w).length from by omega, ht]
        rfl
      · simp only [lines, line_lparen, line_rparen, line_word, line_ident, line_space, List.append_nil, ← fmt_eq, restart, emit, print, Lexeme.text]
  | ident w =>
    obtain ⟨hv1, hw⟩ := hv
    cases w with
    | nil => exact absurd rfl hv1
    | cons c w =>
      simp only [Lexeme.text] at hn ht ⊢
      have hc := (allowed_iff c).2 (hw c (List.mem_cons_self))
      have e1 : stepChar text ⟨.start, ts, start, place st pre, output, printed⟩ p '$' = .ok ⟨.dollar, some p, place st pre, place st (pre ++ ['$']), output, printed⟩ := by
        simp only [stepChar, begin]
        rw [if_neg (by decide), if_neg (by decide), if_true]
        rw [track_place (s := markStart ⟨.start, some p, start, place st pre, output, printed⟩) hr (by simp at hn; omega) rfl]
        simp only [Outcome.ok_bind, markStart]
      have e2 : ∀ q, stepChar text ⟨.dollar, some p, place st pre, place st (pre ++ ['$']), output, printed⟩ q c =
          .ok ⟨.ident, some p, place st pre, place st (pre ++ ['$'] ++ [c]), output, printed⟩ := by
        intro q
        simp only [stepChar]
        rw [if_pos hc, track_place (pre := pre ++ ['$']) hr (by simp at hn ⊢; omega) rfl]
        simp only [Outcome.ok_bind]
      have e : feed text ⟨.start, ts, start, place st pre, output, printed⟩ p ('$' :: c :: w) = .ok ⟨.ident, some p, place st pre, place st (pre ++ '$' :: c :: w), output, printed⟩ := by
        rw [feed, e1]
        simp only [Outcome.ok_bind]
        rw [feed, e2]
        simp only [Outcome.ok_bind]
        rw [feed_inside text hr w _ _ (pre ++ ['$'] ++ [c]) (by simp at hn ⊢; omega) rfl
          (Or.inr (Or.inl ⟨rfl, fun x hx => (allowed_iff x).2 (hw x (List.mem_cons_of_mem _ hx))⟩))]
        simp
      rw [run_append text eof _ tail _ _ p e]
      have hfin : finish text ⟨.ident, some p, place st pre, place st (pre ++ '$' :: c :: w), output, printed⟩
          ⟨p.buf, p.idx + ('$' :: c :: w).length⟩ = .ok (restart (emit (print ⟨.ident, some p, place st pre, place st (pre ++ '$' :: c :: w), output, printed⟩
            ("(indentifier ".toList ++ ('$' :: c :: w) ++ " :start ".toList ++ (place st pre).fmt ++ " :end ".toList ++ (place st (pre ++ '$' :: c :: w)).fmt ++ ")\n".toList))
            .IDENTIFIER p ⟨p.buf, p.idx + ('$' :: c :: w).length⟩)) := by
        simp only [finish, finishIdent]
        rw [view_holds ht]
        simp only [Outcome.ok_bind]
      refine ⟨_, run_ends (Or.inr (Or.inl rfl)) hfin ?_ hne, rfl, ?_, ⟨_, rfl, ?_⟩, ?_⟩
      · intro d t hd
        refine Or.inl ⟨Or.inr rfl, ?_⟩
        cases ha : allowed d with
        | false => rfl
        | true => exact absurd ((allowed_iff d).1 ha) (he d t hd)
      · rw [write_single]; rfl
      · simp only [tokens, Lexeme.kind, List.map_cons, List.map_nil, List.append_nil, List.cons.injEq, and_true]
        simp only [seen]
        rw [show p.idx + ('$' :: c :: w).length - p.idx = ('$' :: c :: w).length from by omega, ht]
        rfl
      · simp only [lines, line_lparen, line_rparen, line_word, line_ident, line_space, List.append_nil, ← fmt_eq, restart, emit, print, Lexeme.text]
        rw [dollar_eq]
        simp only [List.append_assoc, List.cons_append, List.nil_append]
  | space w =>
    obtain ⟨hv1, hw⟩ := hv
    cases w with
    | nil => exact absurd rfl hv1
    | cons c w =>
      simp only [Lexeme.text] at hn ht ⊢
      have hc := (isSpace_iff c).2 (hw c (List.mem_cons_self))
      have hcp := not_others_of_space hc
      have hends : ∀ f : Lexer, (f.cs = .newline ∨ f.cs = .space) → Ends f tail := by
        intro f hf d t hd
        refine Or.inr ⟨hf, ?_⟩
        cases ha : isSpace d with
        | false => rfl
        | true => exact absurd ((isSpace_iff d).1 ha) (he d t hd)
      by_cases hnl : c = '\n'
      · subst hnl
        have e1 : stepChar text ⟨.start, ts, start, place st pre, output, printed⟩ p '\n' = .ok ⟨.newline, some p, start, place st (pre ++ ['\n']), output, printed⟩ := by
          simp only [stepChar, begin]
          rw [if_neg hcp.1, if_neg hcp.2.1, if_neg hcp.2.2.1, if_neg (by rw [hcp.2.2.2]; simp), if_true]
          rw [track_place (s := ⟨.start, some p, start, place st pre, output, printed⟩) hr (by simp at hn; omega) rfl]
          simp only [Outcome.ok_bind]
        cases w with
        | nil =>
          have e : feed text ⟨.start, ts, start, place st pre, output, printed⟩ p ['\n'] = .ok ⟨.newline, some p, start, place st (pre ++ ['\n']), output, printed⟩ := by
            rw [feed, e1]; rfl
          rw [run_append text eof _ tail _ _ p e]
          refine ⟨_, run_ends (Or.inr (Or.inr (Or.inl rfl))) rfl (hends _ (Or.inl rfl)) hne, rfl, ?_, ⟨[], ?_, ?_⟩, ?_⟩
          · rw [write_single]; rfl
          · rw [List.append_nil]; rfl
          · simp [tokens, Lexeme.kind]
          · simp only [lines, line_space, if_true, List.append_nil]; rfl
        | cons d w =>
          have hd := (isSpace_iff d).2 (hw d (by simp))
          have e2 : ∀ q, stepChar text ⟨.newline, some p, start, place st (pre ++ ['\n']), output, printed⟩ q d =
              .ok ⟨.space, some p, start, place st (pre ++ ['\n'] ++ [d]), output, printed⟩ := by
            intro q
            simp only [stepChar]
            rw [if_pos hd, track_place (pre := pre ++ ['\n']) hr (by simp at hn ⊢; omega) rfl]
            simp only [Outcome.ok_bind]
          have e : feed text ⟨.start, ts, start, place st pre, output, printed⟩ p ('\n' :: d :: w) = .ok ⟨.space, some p, start, place st (pre ++ '\n' :: d :: w), output, printed⟩ := by
            rw [feed, e1]
            simp only [Outcome.ok_bind]
            rw [feed, e2]
            simp only [Outcome.ok_bind]
            rw [feed_inside text hr w _ _ (pre ++ ['\n'] ++ [d]) (by simp at hn ⊢; omega) rfl
              (Or.inr (Or.inr ⟨rfl, fun x hx => (isSpace_iff x).2 (hw x (by simp [hx]))⟩))]
            simp
          rw [run_append text eof _ tail _ _ p e]
          refine ⟨_, run_ends (Or.inr (Or.inr (Or.inr rfl))) rfl (hends _ (Or.inr rfl)) hne, rfl, ?_, ⟨[], ?_, ?_⟩, ?_⟩
          · rw [write_single]; rfl
          · rw [List.append_nil]; rfl
          · simp [tokens, Lexeme.kind]
          · simp only [lines, line_lparen, line_rparen, line_word, line_ident, line_space, List.append_nil]
            rw [if_neg (by simp)]; rfl
      · have e1 : stepChar text ⟨.start, ts, start, place st pre, output, printed⟩ p c = .ok ⟨.space, some p, start, place st (pre ++ [c]), output, printed⟩ := by
          simp only [stepChar, begin]
          rw [if_neg hcp.1, if_neg hcp.2.1, if_neg hcp.2.2.1, if_neg (by rw [hcp.2.2.2]; simp), if_neg hnl, if_pos hc]
          rw [track_place (s := ⟨.start, some p, start, place st pre, output, printed⟩) hr (by simp at hn; omega) rfl]
          simp only [Outcome.ok_bind]
        have e : feed text ⟨.start, ts, start, place st pre, output, printed⟩ p (c :: w) = .ok ⟨.space, some p, start, place st (pre ++ c :: w), output, printed⟩ := by
          rw [feed, e1]
          simp only [Outcome.ok_bind]
          rw [feed_inside text hr w _ _ (pre ++ [c]) (by simp at hn ⊢; omega) rfl
            (Or.inr (Or.inr ⟨rfl, fun x hx => (isSpace_iff x).2 (hw x (by simp [hx]))⟩))]
          simp
        rw [run_append text eof _ tail _ _ p e]
        refine ⟨_, run_ends (Or.inr (Or.inr (Or.inr rfl))) rfl (hends _ (Or.inr rfl)) hne, rfl, ?_, ⟨[], ?_, ?_⟩, ?_⟩
        · rw [write_single]; rfl
        · rw [List.append_nil]; rfl
        · simp [tokens, Lexeme.kind]
        · simp only [lines, line_lparen, line_rparen, line_word, line_ident, line_space, List.append_nil]
          rw [if_neg (by simp [hnl])]; rfl

/-! ## Sequences -/

theorem head_of_valid {l : Lexeme} (hv : l.Valid) : ∃ c t, l.text = c :: t := by
  cases l with
  | lparen => exact ⟨_, _, rfl⟩
  | rparen => exact ⟨_, _, rfl⟩
  | word s => cases s with
    | nil => exact absurd rfl hv.1
    | cons c t => exact ⟨c, t, rfl⟩
  | ident s => exact ⟨_, _, rfl⟩
  | space s => cases s with
    | nil => exact absurd rfl hv.1
    | cons c t => exact ⟨c, t, rfl⟩

theorem not_word_of_space {c : Char} (h : Space c) : ¬ WordChar c := by
  intro hw
  have := (not_paren_of_allowed ((allowed_iff c).2 hw)).2.2.2.2
  rw [(isSpace_iff c).2 h] at this
  cases this

theorem goesOn_joins {l l' : Lexeme} {c : Char} {t : List Char} (hv : l'.Valid) (ht : l'.text = c :: t) (hg : GoesOn l c) : Joins l l' := by
  have wnp : ∀ d, WordChar d → d ≠ '(' ∧ d ≠ ')' ∧ d ≠ '$' := fun d hd =>
    have h := not_paren_of_allowed ((allowed_iff d).2 hd); ⟨h.1, h.2.1, h.2.2.1⟩
  have snp : ∀ d, Space d → d ≠ '(' ∧ d ≠ ')' ∧ d ≠ '$' := fun d hd =>
    have h := not_others_of_space ((isSpace_iff d).2 hd); ⟨h.1, h.2.1, h.2.2.1⟩
  have word : WordChar c → ∃ w, l' = .word w := by
    intro hc
    cases l' with
    | lparen => injection ht with ht; exact absurd ht.symm (wnp c hc).1
    | rparen => injection ht with ht; exact absurd ht.symm (wnp c hc).2.1
    | word w => exact ⟨w, rfl⟩
    | ident w => injection ht with ht; exact absurd ht.symm (wnp c hc).2.2
    | space w =>
      simp only [Lexeme.text] at ht
      subst ht
      exact absurd hc (not_word_of_space (hv.2 c (List.mem_cons_self)))
  have space : Space c → ∃ w, l' = .space w := by
    intro hc
    cases l' with
    | lparen => injection ht with ht; exact absurd ht.symm (snp c hc).1
    | rparen => injection ht with ht; exact absurd ht.symm (snp c hc).2.1
    | word w =>
      simp only [Lexeme.text] at ht
      subst ht
      exact absurd (hv.2 c (List.mem_cons_self)) (not_word_of_space hc)
    | ident w => injection ht with ht; exact absurd ht.symm (snp c hc).2.2
    | space w => exact ⟨w, rfl⟩
  cases l with
  | lparen => exact hg.elim
  | rparen => exact hg.elim
  | word w => obtain ⟨x, rfl⟩ := word hg; exact trivial
  | ident w => obtain ⟨x, rfl⟩ := word hg; exact trivial
  | space w => obtain ⟨x, rfl⟩ := space hg; exact trivial

theorem _root_.Ab.Spec.Wast.Proper.valid {l : Lexeme} {ls : List Lexeme} (h : Proper (l :: ls)) : l.Valid := by
  cases ls with
  | nil => exact h
  | cons l' ls => exact h.1

theorem _root_.Ab.Spec.Wast.Proper.tail {l : Lexeme} {ls : List Lexeme} (h : Proper (l :: ls)) : Proper ls := by
  cases ls with
  | nil => trivial
  | cons l' ls => exact h.2.2

/-- The tail begins with something that goes on with no lexeme. -/
def Fresh (tail : List Char) : Prop := ∀ c t, tail = c :: t → ∀ l, ¬ GoesOn l c

theorem fresh_nil : Fresh [] := by intro c t h; cases h

theorem fresh_unreadable {s : List Char} (h : Unreadable s) : Fresh s := by
  obtain ⟨c, t, e, h1, h2, h3, h4, h5⟩ := h
  intro c' t' e' l hg
  rw [e] at e'
  injection e' with e1 e2
  subst e1
  cases l <;> first | exact hg | exact h3 hg | exact h4 hg

theorem run_lexemes (text : Nat → List Char) (eof : Bool) {st : Loc} {n : Nat} (hr : Room st n) : ∀ (ls : List Lexeme) (hp : Proper ls) (s : Lexer)
    (p : Ptr) (pre tail : List Char), pre.length + (write ls).length ≤ n → s.cs = .start → s.location = place st pre →
    Holds text p (write ls) → (∀ c t, tail = c :: t → ∀ l ∈ ls.getLast?, ¬ GoesOn l c) → (tail ≠ [] ∨ eof = true) →
    ∃ f, run text eof s p (write ls ++ tail) = run text eof f ⟨p.buf, p.idx + (write ls).length⟩ tail ∧ Did text st pre ls s f
  | [], _, s, p, pre, tail, _, hs, hl, _, _, _ => by
    refine ⟨s, rfl, hs, ?_, ⟨[], by simp, rfl⟩, by simp [lines]⟩
    simpa [write] using hl
  | l :: ls, hp, s, p, pre, tail, hn, hs, hl, hh, hf, hne => by
    rw [write_cons] at hn hh ⊢
    rw [List.length_append] at hn
    have hh1 : Holds text p l.text := by
      unfold Holds at hh ⊢
      have h := congrArg (List.take l.text.length) hh
      rw [List.take_take, List.length_append, Nat.min_eq_left (by omega), List.take_append_of_le_length (Nat.le_refl _),
        List.take_length] at h
      exact h
    have hh2 : Holds text ⟨p.buf, p.idx + l.text.length⟩ (write ls) := by
      unfold Holds at hh ⊢
      have h := congrArg (List.drop l.text.length) hh
      rw [List.drop_left, List.drop_take, List.drop_drop, List.length_append, Nat.add_sub_cancel_left] at h
      exact h
    obtain ⟨f1, e1, d1⟩ := run_lexeme text hr l hp.valid s p pre (write ls ++ tail) (by omega) hs hl hh1 (by
      intro c t hc hg
      cases ls with
      | nil => exact hf c t (by simpa [write] using hc) l (by simp) hg
      | cons l' ls =>
        obtain ⟨c', t', ht⟩ := head_of_valid hp.2.2.valid
        rw [write_cons, ht] at hc
        injection hc with hc _
        subst hc
        exact hp.2.1 (goesOn_joins hp.2.2.valid ht hg)) eof (by
      rcases hne with h | h
      · left; simp [h]
      · exact Or.inr h)
    have hl1 := d1.loc
    rw [write_single] at hl1
    obtain ⟨f2, e2, d2⟩ := run_lexemes text eof hr ls hp.tail f1 ⟨p.buf, p.idx + l.text.length⟩ (pre ++ l.text) tail
      (by rw [List.length_append]; omega) d1.cs hl1 hh2 (by
      intro c t hc l' hl'
      refine hf c t hc l' ?_
      cases ls with
      | nil => cases hl'
      | cons a b => rw [List.getLast?_cons_cons]; exact hl') hne
    refine ⟨f2, ?_, d2.cs, ?_, ?_, ?_⟩
    · rw [List.append_assoc, e1, e2, List.length_append, Nat.add_assoc]
    · rw [d2.loc, List.append_assoc]; rfl
    · obtain ⟨t1, o1, m1⟩ := d1.out
      obtain ⟨t2, o2, m2⟩ := d2.out
      refine ⟨t1 ++ t2, by rw [o2, o1, List.append_assoc], ?_⟩
      rw [List.map_append, m1, m2]
      simp only [tokens, List.append_nil]
    · rw [d2.said, d1.said]
      simp only [lines, List.append_nil, List.append_assoc]

/-- At something unreadable the lexer stops without a word. -/
theorem run_unreadable (text : Nat → List Char) (eof : Bool) {st : Loc} {n : Nat} (hr : Room st n) {s : Lexer} {p : Ptr} {pre tail : List Char}
    (hn : pre.length + 1 ≤ n) (hs : s.cs = .start) (hl : s.location = place st pre) (hu : Unreadable tail) :
    ∃ f, run text eof s p tail = .ok f ∧ f.output = s.output ∧ f.printed = s.printed ∧ (f.cs = .error ∨ f.cs = .dollar) := by
  obtain ⟨c, t, rfl, h1, h2, h3, h4, h5⟩ := hu
  have ha : allowed c = false := by
    cases h : allowed c with
    | false => rfl
    | true => exact absurd ((allowed_iff c).1 h) h3
  have hsp : isSpace c = false := by
    cases h : isSpace c with
    | false => rfl
    | true => exact absurd ((isSpace_iff c).1 h) h4
  have hnl : c ≠ '\n' := by rintro rfl; revert hsp; decide
  have herr : ∀ (u : List Char) (g : Lexer) (q : Ptr), g.cs = .error → run text eof g q u = .ok g := by
    intro u
    induction u with
    | nil => intro g q hg; cases eof <;> simp [run, feed, finish, hg]
    | cons d u ih =>
      intro g q hg
      have := ih g ⟨q.buf, q.idx + 1⟩ hg
      unfold run at this ⊢
      rw [feed, show stepChar text g q d = .ok g from by unfold stepChar; rw [hg]]
      simp only [Outcome.ok_bind, List.length_cons]
      rw [show q.idx + (u.length + 1) = q.idx + 1 + u.length from by omega]
      exact this
  by_cases hd : c = '$'
  · subst hd
    have e1 : stepChar text s p '$' = .ok { s with cs := .dollar, ts := some p, start := s.location, location := place st (pre ++ ['$']) } := by
      obtain ⟨cs, ts, start, location, output, printed⟩ := s
      simp only at hs hl
      subst hs
      subst hl
      simp only [stepChar, begin]
      rw [if_neg h1, if_neg h2, if_true,
        track_place (s := markStart ⟨.start, some p, start, place st pre, output, printed⟩) hr (by omega) rfl]
      rfl
    cases t with
    | nil =>
      refine ⟨{ s with cs := .dollar, ts := some p, start := s.location, location := place st (pre ++ ['$']) }, ?_, rfl, rfl, Or.inr rfl⟩
      unfold run
      rw [feed, e1]
      cases eof <;> rfl
    | cons d u =>
      have hd : allowed d = false := by
        cases h : allowed d with
        | false => rfl
        | true => exact absurd ((allowed_iff d).1 h) (h5 rfl d u rfl)
      let g : Lexer := { s with cs := .error, ts := some p, start := s.location, location := place st (pre ++ ['$']) }
      refine ⟨g, ?_, rfl, rfl, Or.inl rfl⟩
      have := herr u g ⟨p.buf, p.idx + 1 + 1⟩ rfl
      unfold run at this ⊢
      rw [feed, e1]
      simp only [Outcome.ok_bind]
      rw [feed]
      rw [show stepChar text { s with cs := .dollar, ts := some p, start := s.location, location := place st (pre ++ ['$']) } ⟨p.buf, p.idx + 1⟩ d = .ok g from by
        simp only [stepChar]
        rw [if_neg (by simp [hd])]]
      simp only [Outcome.ok_bind, List.length_cons]
      rw [show p.idx + (u.length + 1 + 1) = p.idx + 1 + 1 + u.length from by omega]
      exact this
  · let g : Lexer := { s with cs := .error, ts := some p }
    refine ⟨g, ?_, rfl, rfl, Or.inl rfl⟩
    have := herr t g ⟨p.buf, p.idx + 1⟩ rfl
    unfold run at this ⊢
    rw [feed, show stepChar text s p c = .ok g from by
      simp only [stepChar, hs, begin]
      rw [if_neg h1, if_neg h2, if_neg hd, if_neg (by simp [ha]), if_neg hnl, if_neg (by simp [hsp])]]
    simp only [Outcome.ok_bind, List.length_cons]
    rw [show p.idx + (t.length + 1) = p.idx + 1 + t.length from by omega]
    exact this

/-! ## Every text is a proper sequence and something unreadable or nothing -/

theorem head_not_word : ∀ {ls : List Lexeme} {rest : List Char}, Proper ls → (∀ w ls', ls ≠ .word w :: ls') →
    (rest = [] ∨ Unreadable rest) → ∀ d u, write ls ++ rest = d :: u → ¬ WordChar d
  | [], rest, _, _, hr, d, u, h => by
    simp only [write, List.map_nil, List.flatten_nil, List.nil_append] at h
    rcases hr with hr | ⟨c, t, e, _, _, h3, _⟩
    · rw [hr] at h; cases h
    · rw [e] at h; injection h with h; rw [← h]; exact h3
  | l :: ls, rest, hp, hw, hr, d, u, h => by
    rw [write_cons] at h
    intro hd
    obtain ⟨c, t, e⟩ := head_of_valid hp.valid
    rw [e] at h
    injection h with h1 _
    subst h1
    have := goesOn_joins (l := .word []) hp.valid e hd
    cases l with
    | word w => exact hw w ls rfl
    | _ => exact this

theorem split_exists : ∀ (t : List Char), ∃ ls rest, t = write ls ++ rest ∧ Proper ls ∧ (rest = [] ∨ Unreadable rest)
  | [] => ⟨[], [], rfl, trivial, Or.inl rfl⟩
  | c :: t => by
    obtain ⟨ls, rest, e, hp, hr⟩ := split_exists t
    -- a parenthesis, or white space or a word that does not join
    have cons : ∀ l : Lexeme, l.Valid → l.text = [c] → (∀ l' ls', ls = l' :: ls' → ¬ Joins l l') →
        ∃ ls rest, c :: t = write ls ++ rest ∧ Proper ls ∧ (rest = [] ∨ Unreadable rest) := by
      intro l hv hc hj
      refine ⟨l :: ls, rest, by rw [write_cons, hc, e]; rfl, ?_, hr⟩
      cases ls with
      | nil => exact hv
      | cons l' ls' => exact ⟨hv, hj l' ls' rfl, hp⟩
    by_cases h1 : c = '('
    · exact cons .lparen trivial (by rw [h1]; rfl) (fun l' ls' _ hj => hj)
    · by_cases h2 : c = ')'
      · exact cons .rparen trivial (by rw [h2]; rfl) (fun l' ls' _ hj => hj)
      · by_cases h3 : WordChar c
        · by_cases hw : ∃ w ls', ls = .word w :: ls'
          · obtain ⟨w, ls', rfl⟩ := hw
            refine ⟨.word (c :: w) :: ls', rest, by rw [e]; rfl, ?_, hr⟩
            have hv : (Lexeme.word (c :: w)).Valid := by
              refine ⟨by simp, ?_⟩
              intro d hd
              rcases List.mem_cons.1 hd with rfl | hd
              · exact h3
              · exact hp.valid.2 d hd
            cases ls' with
            | nil => exact hv
            | cons l'' ls'' => exact ⟨hv, fun hj => hp.2.1 (by cases l'' <;> exact hj), hp.2.2⟩
          · refine cons (.word [c]) ⟨by simp, by simpa using h3⟩ rfl ?_
            intro l' ls' hl hj
            cases l' with
            | word w => exact hw ⟨w, ls', hl⟩
            | _ => exact hj
        · by_cases h4 : Space c
          · by_cases hw : ∃ w ls', ls = .space w :: ls'
            · obtain ⟨w, ls', rfl⟩ := hw
              refine ⟨.space (c :: w) :: ls', rest, by rw [e]; rfl, ?_, hr⟩
              have hv : (Lexeme.space (c :: w)).Valid := by
                refine ⟨by simp, ?_⟩
                intro d hd
                rcases List.mem_cons.1 hd with rfl | hd
                · exact h4
                · exact hp.valid.2 d hd
              cases ls' with
              | nil => exact hv
              | cons l'' ls'' => exact ⟨hv, fun hj => hp.2.1 (by cases l'' <;> exact hj), hp.2.2⟩
            · refine cons (.space [c]) ⟨by simp, by simpa using h4⟩ rfl ?_
              intro l' ls' hl hj
              cases l' with
              | space w => exact hw ⟨w, ls', hl⟩
              | _ => exact hj
          · by_cases h5 : c = '$'
            · subst h5
              by_cases hw : ∃ w ls', ls = .word w :: ls'
              · obtain ⟨w, ls', rfl⟩ := hw
                refine ⟨.ident w :: ls', rest, by rw [e]; rfl, ?_, hr⟩
                have hv : (Lexeme.ident w).Valid := hp.valid
                cases ls' with
                | nil => exact hv
                | cons l'' ls'' => exact ⟨hv, fun hj => hp.2.1 (by cases l'' <;> exact hj), hp.2.2⟩
              · refine ⟨[], '$' :: t, rfl, trivial, Or.inr ⟨'$', t, rfl, h1, h2, h3, h4, ?_⟩⟩
                intro _ d u hd
                exact head_not_word hp (fun w ls' h => hw ⟨w, ls', h⟩) hr d u (e ▸ hd)
            · exact ⟨[], c :: t, rfl, trivial, Or.inr ⟨c, t, rfl, h1, h2, h3, h4, fun h => absurd h h5⟩⟩

end Ab.Wast
