import Verif.Proof.WastPieces
/-!
Property theorems C72–C74: the WAST lexer.
-/
namespace Ab.Wast
open Spec.Wast

theorem room_first {n : Nat} (h : n < 2147483647) : Room Loc.first n := by
  unfold Room Loc.first
  simp only
  omega

theorem lex_eq_run (text : Nat → List Char) (s : Lexer) (b : Nat) (eof : Bool) :
    lex text s ⟨b, 0⟩ (text b).length eof = run text eof s ⟨b, 0⟩ (text b) := by
  unfold lex run
  simp

/-! ## C72 tokens and their places -/

/-- **C72.** Lexing any file below two gigabytes that consists of parentheses, words, identifiers and white space delivers exactly the
tokens of its lexemes, in order, each with its kind, its text and the line, column and offset where it starts and ends, and prints a
line for each lexeme. -/
theorem C72_tokens (text : Nat → List Char) (b : Nat) (ls : List Lexeme) (junk : Loc) (hp : Proper ls) (ht : text b = write ls)
    (hn : (text b).length < 2147483647) :
    ∃ s, lex text (Lexer.make junk Loc.first) ⟨b, 0⟩ (text b).length true = .ok s ∧
      s.output.map (seen text) = tokens ⟨0, 1, 1⟩ [] ls ∧ s.printed = lines ⟨0, 1, 1⟩ [] ls := by
  obtain ⟨f, e, d⟩ := run_lexemes text true (room_first hn) ls hp (Lexer.make junk Loc.first) ⟨b, 0⟩ [] [] (by rw [ht]; simp) rfl
    (place_nil _).symm (by unfold Holds; simp [ht]) (fun _ _ h => by cases h) (Or.inr rfl)
  rw [List.append_nil, ← ht] at e
  have e2 : run text true f ⟨b, 0 + (text b).length⟩ [] = .ok f := finish_of_start d.cs
  refine ⟨f, by rw [lex_eq_run, e, e2], ?_, ?_⟩
  · obtain ⟨ts, o, m⟩ := d.out
    rw [o]
    exact m
  · rw [d.said]; rfl

/-- The first test file without its comment, as lexemes. -/
def exLexemes : List Lexeme :=
  [.lparen, .word "module".toList, .space ['\n', '\t'], .lparen, .word "func".toList, .space [' '], .ident "f".toList, .rparen, .rparen]

theorem exProper : Proper exLexemes := by
  unfold exLexemes
  simp only [Proper, Lexeme.Valid, Joins, not_false_eq_true, true_and, and_true]
  refine ⟨?_, ?_, ?_, ?_, ?_⟩ <;> refine ⟨by decide, ?_⟩ <;> intro c hc
  · exact (allowed_iff c).1 (by revert c; decide)
  · exact (isSpace_iff c).1 (by revert c; decide)
  · exact (allowed_iff c).1 (by revert c; decide)
  · exact (isSpace_iff c).1 (by revert c; decide)
  · exact (allowed_iff c).1 (by revert c; decide)

example : tokens ⟨0, 1, 1⟩ [] exLexemes = [
    ⟨.LPAREN, ⟨⟨0, 1, 1⟩, ⟨1, 1, 2⟩⟩, ['(']⟩, ⟨.NAME, ⟨⟨1, 1, 2⟩, ⟨7, 1, 8⟩⟩, "module".toList⟩,
    ⟨.LPAREN, ⟨⟨9, 2, 2⟩, ⟨10, 2, 3⟩⟩, ['(']⟩, ⟨.NAME, ⟨⟨10, 2, 3⟩, ⟨14, 2, 7⟩⟩, "func".toList⟩,
    ⟨.IDENTIFIER, ⟨⟨15, 2, 8⟩, ⟨17, 2, 10⟩⟩, "$f".toList⟩,
    ⟨.RPAREN, ⟨⟨17, 2, 10⟩, ⟨18, 2, 11⟩⟩, [')']⟩, ⟨.RPAREN, ⟨⟨18, 2, 11⟩, ⟨19, 2, 12⟩⟩, [')']⟩] := by decide +kernel

/-! ## C73 everything else is reported -/

/-- **C73**, full statement: lexing a file that goes on with something unreadable after some lexemes reports an error: among the tokens is one of kind
`ERROR`, or an exception is raised. -/
def C73_full : Prop :=
  ∀ (text : Nat → List Char) (b : Nat) (ls : List Lexeme) (rest : List Char) (junk : Loc), Proper ls → Unreadable rest →
    text b = write ls ++ rest → (text b).length < 2147483647 →
    (∃ s, lex text (Lexer.make junk Loc.first) ⟨b, 0⟩ (text b).length true = .ok s ∧ ∃ t ∈ s.output, t.kind = .ERROR) ∨
    (lex text (Lexer.make junk Loc.first) ⟨b, 0⟩ (text b).length true).isThrow = true

/-- **C73**, what happens instead, exactly: the tokens before the unreadable character are delivered, everything after it is
lost, and nothing is said about it. Together with `C73_every_text` this describes the lexer on every file below two gigabytes. -/
theorem C73_the_rest_is_lost (text : Nat → List Char) (b : Nat) (ls : List Lexeme) (rest : List Char) (junk : Loc) (hp : Proper ls)
    (hu : Unreadable rest) (ht : text b = write ls ++ rest) (hn : (text b).length < 2147483647) :
    ∃ s, lex text (Lexer.make junk Loc.first) ⟨b, 0⟩ (text b).length true = .ok s ∧
      s.output.map (seen text) = tokens ⟨0, 1, 1⟩ [] ls ∧ s.printed = lines ⟨0, 1, 1⟩ [] ls := by
  have hl : 1 ≤ rest.length := by obtain ⟨c, t, e, _⟩ := hu; rw [e]; simp
  have hlen := congrArg List.length ht
  rw [List.length_append] at hlen
  obtain ⟨f, e, d⟩ := run_lexemes text true (room_first hn) ls hp (Lexer.make junk Loc.first) ⟨b, 0⟩ [] rest
    (by rw [hlen, List.length_nil]; omega) rfl
    (place_nil _).symm (by unfold Holds; rw [ht]; simp) (fun c t h l _ => fresh_unreadable hu c t h l) (Or.inr rfl)
  obtain ⟨g, e2, o2, p2, _⟩ := run_unreadable text true (p := ⟨b, 0 + (write ls).length⟩) (room_first hn)
    (by rw [List.nil_append, hlen]; omega) d.cs d.loc hu
  refine ⟨g, by rw [lex_eq_run, ← e2, ← e, ← ht], ?_, ?_⟩
  · obtain ⟨ts, o, m⟩ := d.out
    rw [o2, o]
    exact m
  · rw [p2, d.said]; rfl

/-- Every text is a sequence of lexemes followed by nothing or by something unreadable. -/
theorem C73_every_text (t : List Char) : ∃ ls rest, t = write ls ++ rest ∧ Proper ls ∧ (rest = [] ∨ Unreadable rest) :=
  split_exists t

theorem tokens_no_error (st : Loc) : ∀ (ls : List Lexeme) (pre : List Char), ∀ t ∈ tokens st pre ls, t.kind ≠ .ERROR
  | [], _, t, h => by cases h
  | l :: ls, pre, t, h => by
    simp only [tokens, List.mem_append] at h
    rcases h with h | h
    · cases l <;> simp only [Lexeme.kind, List.mem_cons, List.not_mem_nil, or_false] at h <;> first | (rw [h]; simp) | exact h.elim
    · exact tokens_no_error st ls _ t h

theorem semicolon_unreadable (t : List Char) : Unreadable (';' :: t) := by
  refine ⟨';', t, rfl, by decide, by decide, ?_, ?_, fun h => absurd h (by decide)⟩
  · intro h; have := (allowed_iff ';').2 h; revert this; decide
  · intro h; have := (isSpace_iff ';').2 h; revert this; decide

theorem quote_unreadable (t : List Char) : Unreadable ('"' :: t) := by
  refine ⟨'"', t, rfl, by decide, by decide, ?_, ?_, fun h => absurd h (by decide)⟩
  · intro h; have := (allowed_iff '"').2 h; revert this; decide
  · intro h; have := (isSpace_iff '"').2 h; revert this; decide

/-- **C73 is false of the code** – for every file with something unreadable in it: no error is ever reported. -/
theorem C73_negation (text : Nat → List Char) (b : Nat) (ls : List Lexeme) (rest : List Char) (junk : Loc) (hp : Proper ls)
    (hu : Unreadable rest) (ht : text b = write ls ++ rest) (hn : (text b).length < 2147483647) :
    ¬ ((∃ s, lex text (Lexer.make junk Loc.first) ⟨b, 0⟩ (text b).length true = .ok s ∧ ∃ t ∈ s.output, t.kind = .ERROR) ∨
      (lex text (Lexer.make junk Loc.first) ⟨b, 0⟩ (text b).length true).isThrow = true) := by
  obtain ⟨s, e, o, _⟩ := C73_the_rest_is_lost text b ls rest junk hp hu ht hn
  rw [e]
  rintro (⟨s', e', t, htm, hk⟩ | h)
  · injection e' with e'
    subst e'
    have : seen text t ∈ tokens ⟨0, 1, 1⟩ [] ls := by rw [← o]; exact List.mem_map_of_mem htm
    exact tokens_no_error _ ls [] _ this hk
  · cases h

/-- … so the full statement does not hold. -/
theorem C73_negation_full : ¬ C73_full := by
  intro h
  exact C73_negation (fun _ => [';']) 0 [] [';'] Loc.first trivial (semicolon_unreadable []) rfl (by decide)
    (h (fun _ => [';']) 0 [] [';'] Loc.first trivial (semicolon_unreadable []) rfl (by decide))

/-- **C73**, in particular: a comment or a string ends the reading – whatever comes after the first `;` or `"` is lost. -/
theorem C73_comments_and_strings_end_the_file (text : Nat → List Char) (b : Nat) (ls : List Lexeme) (c : Char) (rest : List Char)
    (junk : Loc) (hc : c = ';' ∨ c = '"') (hp : Proper ls) (ht : text b = write ls ++ c :: rest)
    (hn : (text b).length < 2147483647) :
    ∃ s, lex text (Lexer.make junk Loc.first) ⟨b, 0⟩ (text b).length true = .ok s ∧
      s.output.map (seen text) = tokens ⟨0, 1, 1⟩ [] ls := by
  have hu : Unreadable (c :: rest) := by
    rcases hc with rfl | rfl
    · exact semicolon_unreadable rest
    · exact quote_unreadable rest
  obtain ⟨s, e, o, _⟩ := C73_the_rest_is_lost text b ls (c :: rest) junk hp hu ht hn
  exact ⟨s, e, o⟩

/-- The test file test/empty-module-with-comment.wast: the closing parenthesis is lost. -/
example : write [.lparen, .word "module".toList, .space ['\n', '\t']] ++ ';' :: " this is a module\n)\n".toList =
    "(module\n\t; this is a module\n)\n".toList := by decide +kernel

/-! ## C74 pieces -/

/-- **C74.** Lexing one buffer in two calls, cut anywhere, is lexing it in one. -/
theorem C74_one_buffer (text : Nat → List Char) (s : Lexer) (b i j k : Nat) (hij : i ≤ j) (hjk : j ≤ k) (hk : k ≤ (text b).length)
    (eof : Bool) :
    (do let s ← lex text s ⟨b, i⟩ j false; lex text s ⟨b, j⟩ k eof) = lex text s ⟨b, i⟩ k eof := by
  unfold lex
  simp only [Bool.false_eq_true, if_false]
  have hs : ((text b).take k).drop i = ((text b).take j).drop i ++ ((text b).take k).drop j := by
    have h1 : (text b).take k = (text b).take j ++ ((text b).take k).drop j := by
      have := List.take_append_drop j ((text b).take k)
      rw [List.take_take, Nat.min_eq_left hjk] at this
      exact this.symm
    conv => lhs; rw [h1]
    rw [List.drop_append_of_le_length (by rw [List.length_take]; omega)]
  rw [hs, feed_append]
  have hl : i + (((text b).take j).drop i).length = j := by
    rw [List.length_drop, List.length_take]; omega
  simp only [hl]
  cases feed text s ⟨b, i⟩ (((text b).take j).drop i) <;> rfl

/-- **C74**, full statement: a file that comes in pieces, each in its own buffer, cut anywhere, gives the same tokens. -/
def C74_full : Prop :=
  ∀ (pieces : List (List Char)) (ls : List Lexeme) (junk : Loc), Proper ls → pieces.flatten = write ls → (write ls).length < 2147483647 →
    pieces ≠ [] →
    ∃ s, lexPieces (buffers pieces) (Lexer.make junk Loc.first) 0 pieces.length = .ok s ∧
      s.output.map (seen (buffers pieces)) = tokens ⟨0, 1, 1⟩ [] ls

/-- **C74 is false of the code**: a word cut in two is undefined behaviour. -/
theorem C74_negation : ¬ C74_full := by
  intro h
  obtain ⟨s, e, _⟩ := h [['a'], ['b']] [.word ['a', 'b']] Loc.first
    ⟨by simp, by intro c hc; exact (allowed_iff c).1 (by revert c; decide)⟩ rfl (by decide) (by simp)
  have : (lexPieces (buffers [['a'], ['b']]) (Lexer.make Loc.first Loc.first) 0 2).isOk = true := by
    rw [show (2 : Nat) = [['a'], ['b']].length from rfl, e]; rfl
  revert this
  decide +kernel

theorem proper_snoc : ∀ {ls : List Lexeme} {l : Lexeme}, Proper (ls ++ [l]) →
    Proper ls ∧ l.Valid ∧ ∀ x ∈ ls.getLast?, ¬ Joins x l
  | [], l, h => ⟨trivial, h, by simp⟩
  | [a], l, h => ⟨h.1, h.2.2, by intro x hx; simp only [List.getLast?_singleton, Option.mem_some_iff] at hx; subst hx; exact h.2.1⟩
  | a :: b :: ls, l, h => by
    obtain ⟨h1, h2, h3⟩ := proper_snoc (ls := b :: ls) h.2.2
    refine ⟨⟨h.1, h.2.1, h1⟩, h2, ?_⟩
    intro x hx
    rw [List.getLast?_cons_cons] at hx
    exact h3 x hx

/-- Reading a word or an identifier, without its end: the lexer is inside a token that starts at `p`. -/
theorem feed_open (text : Nat → List Char) {st : Loc} {n : Nat} (hr : Room st n) {l : Lexeme} (hv : l.Valid)
    (hl : (∃ w, l = .word w) ∨ ∃ w, l = .ident w) {s : Lexer} {p : Ptr} {pre : List Char} (hn : pre.length + l.text.length ≤ n)
    (hs : s.cs = .start) (hloc : s.location = place st pre) :
    ∃ f, feed text s p l.text = .ok f ∧ (f.cs = .name ∨ f.cs = .ident) ∧ f.ts = some p := by
  obtain ⟨cs, ts, start, location, output, printed⟩ := s
  simp only at hs hloc
  subst hs
  subst hloc
  rcases hl with ⟨w, rfl⟩ | ⟨w, rfl⟩
  · obtain ⟨h1, hw⟩ := hv
    cases w with
    | nil => exact absurd rfl h1
    | cons c w =>
      simp only [Lexeme.text] at hn ⊢
      have hc := (allowed_iff c).2 (hw c (List.mem_cons_self))
      have hcp := not_paren_of_allowed hc
      have e1 : stepChar text ⟨.start, ts, start, place st pre, output, printed⟩ p c =
          .ok ⟨.name, some p, place st pre, place st (pre ++ [c]), output, printed⟩ := by
        simp only [stepChar, begin]
        rw [if_neg hcp.1, if_neg hcp.2.1, if_neg hcp.2.2.1, if_pos hc]
        rw [track_place (s := markStart ⟨.start, some p, start, place st pre, output, printed⟩) hr (by simp at hn; omega) rfl]
        simp only [Outcome.ok_bind, markStart]
      rw [feed, e1]
      simp only [Outcome.ok_bind]
      rw [feed_inside text hr w _ _ (pre ++ [c]) (by simp at hn ⊢; omega) rfl
          (Or.inl ⟨rfl, fun x hx => (allowed_iff x).2 (hw x (List.mem_cons_of_mem _ hx))⟩)]
      exact ⟨_, rfl, Or.inl rfl, rfl⟩
  · obtain ⟨h1, hw⟩ := hv
    cases w with
    | nil => exact absurd rfl h1
    | cons c w =>
      simp only [Lexeme.text] at hn ⊢
      have hc := (allowed_iff c).2 (hw c (List.mem_cons_self))
      have e1 : stepChar text ⟨.start, ts, start, place st pre, output, printed⟩ p '$' =
          .ok ⟨.dollar, some p, place st pre, place st (pre ++ ['$']), output, printed⟩ := by
        simp only [stepChar, begin]
        rw [if_neg (by decide), if_neg (by decide), if_true]
        rw [track_place (s := markStart ⟨.start, some p, start, place st pre, output, printed⟩) hr (by simp at hn; omega) rfl]
        simp only [Outcome.ok_bind, markStart]
      have e2 : ∀ q, stepChar text ⟨.dollar, some p, place st pre, place st (pre ++ ['$']), output, printed⟩ q c =
          .ok ⟨.ident, some p, place st pre, place st (pre ++ ['$'] ++ [c]), output, printed⟩ := by
        intro q
        simp only [stepChar]
        rw [if_pos hc, track_place (pre := pre ++ ['$']) hr (by simp at hn ⊢; omega) rfl]
        simp only [Outcome.ok_bind]
      rw [feed, e1]
      simp only [Outcome.ok_bind]
      rw [feed, e2]
      simp only [Outcome.ok_bind]
      rw [feed_inside text hr w _ _ (pre ++ ['$'] ++ [c]) (by simp at hn ⊢; omega) rfl
          (Or.inr (Or.inl ⟨rfl, fun x hx => (allowed_iff x).2 (hw x (List.mem_cons_of_mem _ hx))⟩))]
      exact ⟨_, rfl, Or.inr rfl, rfl⟩

theorem track_ok_or_ub (s : Lexer) (c : Char) : (∃ l, track s c = .ok { s with location := l }) ∨ ∃ w, track s c = .ub w := by
  unfold track inc
  by_cases h1 : s.location.offset = 2147483647
  · rw [if_pos h1]; exact Or.inr ⟨_, rfl⟩
  · rw [if_neg h1]
    by_cases h2 : s.location.column = 2147483647
    · rw [if_pos h2]; exact Or.inr ⟨_, rfl⟩
    · rw [if_neg h2]
      simp only [Outcome.ok_bind]
      by_cases h3 : c = '\n'
      · rw [if_pos h3]
        by_cases h4 : s.location.line = 2147483647
        · rw [if_pos h4]; exact Or.inr ⟨_, rfl⟩
        · rw [if_neg h4]; exact Or.inl ⟨_, rfl⟩
      · rw [if_neg h3]; exact Or.inl ⟨_, rfl⟩

/-- A token that started in another buffer cannot be finished. -/
theorem run_foreign (text : Nat → List Char) : ∀ (cs : List Char) (s : Lexer) (p q : Ptr), (s.cs = .name ∨ s.cs = .ident) →
    s.ts = some q → q.buf ≠ p.buf → (run text true s p cs).isUb = true
  | [], s, p, q, hs, ht, hq => by
    show (finish text s p).isUb = true
    unfold finish
    rcases hs with e | e <;> rw [e] <;> simp only [finishName, finishIdent, ht, view] <;> rw [if_neg hq] <;> rfl
  | c :: cs, s, p, q, hs, ht, hq => by
    unfold run
    rw [feed]
    by_cases hc : allowed c = true
    · have e : stepChar text s p c = track s c := by
        unfold stepChar
        rcases hs with e | e <;> rw [e] <;> simp only <;> rw [if_pos hc]
      rw [e]
      rcases track_ok_or_ub s c with ⟨l, e⟩ | ⟨w, e⟩
      · rw [e]
        simp only [Outcome.ok_bind, List.length_cons]
        have := run_foreign text cs { s with location := l } ⟨p.buf, p.idx + 1⟩ q hs ht hq
        unfold run at this
        rw [show p.idx + (cs.length + 1) = p.idx + 1 + cs.length from by omega]
        exact this
      · rw [e]; rfl
    · have e : (stepChar text s p c) = .ub "difference of unrelated pointers" := by
        unfold stepChar
        rcases hs with e | e <;> rw [e] <;> simp only <;> rw [if_neg hc] <;> simp only [finishName, finishIdent, ht, view] <;>
          rw [if_neg hq] <;> rfl
      rw [e]; rfl

/-- How it fails: whenever a piece ends with a word or an identifier, even a complete one, the next piece – whatever it is – is undefined
behaviour. -/
theorem C74_word_at_the_cut (ls : List Lexeme) (l : Lexeme) (hl : (∃ w, l = .word w) ∨ ∃ w, l = .ident w) (b : List Char) (junk : Loc)
    (hp : Proper (ls ++ [l])) (hn : (write (ls ++ [l])).length < 2147483647) :
    (lexPieces (buffers [write (ls ++ [l]), b]) (Lexer.make junk Loc.first) 0 2).isUb = true := by
  obtain ⟨hp1, hv, hj⟩ := proper_snoc hp
  have hw : write (ls ++ [l]) = write ls ++ l.text := by simp [write]
  rw [hw] at hn
  rw [hw]
  rw [List.length_append] at hn
  let text := buffers [write ls ++ l.text, b]
  have t0 : text 0 = write ls ++ l.text := rfl
  have hne : l.text ≠ [] := by obtain ⟨c, t, e⟩ := head_of_valid hv; rw [e]; simp
  obtain ⟨f, e, d⟩ := run_lexemes text false (room_first hn) ls hp1 (Lexer.make junk Loc.first) ⟨0, 0⟩ [] l.text
    (by simp) rfl (place_nil _).symm (by unfold Holds; rw [t0]; simp)
    (fun c t h x hx hg => hj x hx (goesOn_joins hv h hg)) (Or.inl hne)
  obtain ⟨g, e2, hg1, hg2⟩ := feed_open text (room_first hn) hv hl (p := ⟨0, 0 + (write ls).length⟩) (Nat.le_refl _) d.cs (by rw [d.loc]; rfl)
  have e3 : lex text (Lexer.make junk Loc.first) ⟨0, 0⟩ (text 0).length false = .ok g := by
    rw [lex_eq_run, t0, e]
    unfold run
    rw [e2]
    rfl
  show ((do let s ← lex text (Lexer.make junk Loc.first) ⟨0, 0⟩ (text 0).length false; lex text s ⟨1, 0⟩ (text 1).length true) : Outcome Lexer).isUb = true
  rw [e3]
  simp only [Outcome.ok_bind]
  rw [lex_eq_run]
  exact run_foreign text _ g _ _ hg1 hg2 (by simp)

theorem whole_buffers (pieces : List (List Char)) : Whole (buffers pieces) pieces.flatten := by
  intro k i j hij hj hne
  have hk : k < pieces.length := by
    rcases Nat.lt_or_ge k pieces.length with h | h
    · exact h
    · exfalso; apply hne; simp [buffers, List.getElem?_eq_none h]
  have hb : ∀ m, m ≤ pieces.length → base (buffers pieces) m = (pieces.take m).flatten.length := by
    intro m
    induction m with
    | zero => intro _; rfl
    | succ m ih =>
      intro hm
      rw [base, ih (by omega), List.take_add_one, List.flatten_append, List.length_append]
      simp [buffers, List.getElem?_eq_getElem (show m < pieces.length by omega)]
  have hs : pieces.flatten = (pieces.take k).flatten ++ (buffers pieces k ++ (pieces.drop (k + 1)).flatten) := by
    have : pieces = pieces.take k ++ (pieces[k] :: pieces.drop (k + 1)) := by simp
    conv => lhs; rw [this]
    rw [List.flatten_append, List.flatten_cons]
    simp [buffers, List.getElem?_eq_getElem hk]
  rw [hb k (by omega), hs, List.drop_append, List.drop_of_length_le (by omega), List.nil_append,
    show (List.take k pieces).flatten.length + i - (List.take k pieces).flatten.length = i from by omega,
    List.drop_append_of_le_length (by omega), List.take_append_of_le_length (by rw [List.length_drop]; omega)]

/-- What the pieces `k`, …, `k + n - 1` hold. -/
def rest (text : Nat → List Char) (k : Nat) : Nat → List Char
  | 0 => []
  | n + 1 => text k ++ rest text (k + 1) n

theorem pieces_sim {text : Nat → List Char} {whole : List Char} (hw : Whole text whole) : ∀ (n k : Nat) (s : Lexer) (s1 : Lexer),
    (∀ m, k ≤ m → m + 1 < k + (n + 1) → EndsBetween (text m)) → (s.cs ≠ .name ∧ s.cs ≠ .dollar ∧ s.cs ≠ .ident) →
    (∀ t ∈ s.output, TokOk text t) →
    run (fun _ => whole) true (globL text s) ⟨0, base text k⟩ (rest text k (n + 1)) = .ok s1 →
    ∃ s2, lexPieces text s k (n + 1) = .ok s2 ∧ s1 = globL text s2 ∧ ∀ t ∈ s2.output, TokOk text t
  | 0, k, s, s1, _, hs, ht, h => by
    have h0 : rest text k 1 = text k := by simp [rest]
    rw [h0] at h
    show ∃ s2, lex text s ⟨k, 0⟩ (text k).length true = .ok s2 ∧ _
    rw [lex_eq_run]
    unfold run at h ⊢
    obtain ⟨a, h1, h2⟩ := Outcome.bind_eq_ok.1 h
    obtain ⟨b, e, rfl, hb⟩ := sim_feed hw (k := k) (text k) 0 s (inv_idle ht hs) (by omega) a h1
    rw [e]
    simp only [Outcome.ok_bind, if_true] at h2 ⊢
    have hlast : (⟨(⟨0, base text k⟩ : Ptr).buf, (⟨0, base text k⟩ : Ptr).idx + (text k).length⟩ : Ptr) = glob text ⟨k, 0 + (text k).length⟩ := by
      simp [glob]
    rw [hlast] at h2
    have hpos : b.cs = .name ∨ b.cs = .dollar ∨ b.cs = .ident → (text k).length ≠ 0 := by
      intro hc hz
      have : text k = [] := List.length_eq_zero_iff.1 hz
      rw [this] at e
      cases e
      rcases hc with hc | hc | hc
      · exact hs.1 hc
      · exact hs.2.1 hc
      · exact hs.2.2 hc
    unfold finish at h2 ⊢
    rw [show (globL text b).cs = b.cs from rfl] at h2
    cases hcs : b.cs with
    | name =>
      rw [hcs] at h2
      obtain ⟨s2, e2, r, i2⟩ := sim_finishName hw hb hcs (by omega) (hpos (Or.inl hcs)) 0 s1 h2
      exact ⟨s2, e2, r, i2.toks⟩
    | ident =>
      rw [hcs] at h2
      obtain ⟨s2, e2, r, i2⟩ := sim_finishIdent hw hb hcs (by omega) (hpos (Or.inr (Or.inr hcs))) 0 s1 h2
      exact ⟨s2, e2, r, i2.toks⟩
    | newline => rw [hcs] at h2; cases h2; exact ⟨finishNewline b, rfl, rfl, hb.toks⟩
    | space => rw [hcs] at h2; cases h2; exact ⟨finishSpace b, rfl, rfl, hb.toks⟩
    | start => rw [hcs] at h2; cases h2; exact ⟨b, rfl, rfl, hb.toks⟩
    | dollar => rw [hcs] at h2; cases h2; exact ⟨b, rfl, rfl, hb.toks⟩
    | error => rw [hcs] at h2; cases h2; exact ⟨b, rfl, rfl, hb.toks⟩
  | n + 1, k, s, s1, hend, hs, ht, h => by
    have h0 : rest text k (n + 2) = text k ++ rest text (k + 1) (n + 1) := rfl
    rw [h0] at h
    show ∃ s2, (do let s ← lex text s ⟨k, 0⟩ (text k).length false; lexPieces text s (k + 1) (n + 1)) = .ok s2 ∧ _
    rw [lex_eq_run]
    have hf : ∃ a, feed (fun _ => whole) (globL text s) ⟨0, base text k⟩ (text k) = .ok a := by
      unfold run at h
      obtain ⟨x, hx, _⟩ := Outcome.bind_eq_ok.1 h
      rw [feed_append] at hx
      obtain ⟨a, ha, _⟩ := Outcome.bind_eq_ok.1 hx
      exact ⟨a, ha⟩
    obtain ⟨a, h1⟩ := hf
    rw [run_append _ true _ _ _ _ _ h1] at h
    obtain ⟨b, e, rfl, hb⟩ := sim_feed hw (k := k) (text k) 0 s (inv_idle ht hs) (by omega) a h1
    have e' : run text false s ⟨k, 0⟩ (text k) = .ok b := by unfold run; rw [e]; rfl
    rw [e']
    simp only [Outcome.ok_bind]
    have hidle : b.cs ≠ .name ∧ b.cs ≠ .dollar ∧ b.cs ≠ .ident := by
      by_cases hnil : text k = []
      · rw [hnil] at e; cases e; exact hs
      · rcases feed_between (hend k (Nat.le_refl _) (by omega)) hnil e with x | x | x | x <;> rw [x] <;> simp
    exact pieces_sim hw n (k + 1) b s1 (fun m h1 h2 => hend m (by omega) (by omega)) hidle hb.toks h

theorem rest_buffers : ∀ (a pieces : List (List Char)), rest (buffers (a ++ pieces)) a.length pieces.length = pieces.flatten
  | a, [] => rfl
  | a, p :: ps => by
    rw [List.length_cons, rest]
    have h := rest_buffers (a ++ [p]) ps
    rw [List.append_assoc, List.length_append] at h
    simp only [List.singleton_append, List.length_singleton] at h
    rw [h, List.flatten_cons]
    simp [buffers]

theorem seen_glob {text : Nat → List Char} {whole : List Char} (hw : Whole text whole) {t : Token} (h : TokOk text t) :
    seen (fun _ => whole) (globTok text t) = seen text t := by
  obtain ⟨kd, loc, ⟨fb, fi⟩, ⟨lb, li⟩⟩ := t
  obtain ⟨h1, h2, h3, h4⟩ := h
  simp only at h1 h2 h3 h4
  subst h1
  simp only [seen, globTok, glob]
  rw [show base text fb + li - (base text fb + fi) = li - fi from by omega, hw fb fi li h2 h3 h4]

/-- **C74**, what holds: if every piece but the last is empty or ends with a parenthesis or white space, the tokens are those of the whole
text, with their places in the whole text.
Missing: pieces that end inside or right after a word or an identifier. -/
theorem C74_pieces_partial (pieces : List (List Char)) (ls : List Lexeme) (junk : Loc) (hp : Proper ls) (hw : pieces.flatten = write ls)
    (hn : (write ls).length < 2147483647) (hne : pieces ≠ []) (hend : ∀ p ∈ pieces.dropLast, EndsBetween p) :
    ∃ s, lexPieces (buffers pieces) (Lexer.make junk Loc.first) 0 pieces.length = .ok s ∧
      s.output.map (seen (buffers pieces)) = tokens ⟨0, 1, 1⟩ [] ls := by
  obtain ⟨s1, e1, o1, _⟩ := C72_tokens (fun _ => pieces.flatten) 0 ls junk hp hw (by rw [hw]; exact hn)
  rw [lex_eq_run] at e1
  obtain ⟨n, hlen⟩ : ∃ n, pieces.length = n + 1 := ⟨pieces.length - 1, by have := List.length_pos_iff.2 hne; omega⟩
  have hr := rest_buffers [] pieces
  simp only [List.nil_append, List.length_nil] at hr
  rw [hlen] at hr ⊢
  obtain ⟨s2, e2, rfl, ht⟩ := pieces_sim (whole_buffers pieces) n 0 (Lexer.make junk Loc.first) s1 (by
      intro m _ hm
      have hm' : m < pieces.dropLast.length := by rw [List.length_dropLast]; omega
      have := hend (pieces.dropLast[m]) (List.getElem_mem hm')
      simpa [buffers, List.getElem?_eq_getElem (show m < pieces.length by omega)] using this)
    (by simp [Lexer.make]) (by simp [Lexer.make]) (by rw [hr]; exact e1)
  refine ⟨s2, e2, ?_⟩
  rw [← o1]
  simp only [globL, List.map_map]
  apply List.map_congr_left
  intro t h
  exact (seen_glob (whole_buffers pieces) (ht t h)).symm

example : EndsBetween "(module\n".toList := by
  intro c hc
  have : c = '\n' := by revert hc; simp [show "(module\n".toList = ['(', 'm', 'o', 'd', 'u', 'l', 'e', '\n'] from by decide]; exact fun e => e.symm
  subst this
  exact Or.inr (Or.inr ((isSpace_iff '\n').1 (by decide)))

end Ab.Wast
