import Verif.Spec.WastCut
import Verif.Props.Wast
/-! C130: WebAssembly texts that lost their end. -/
namespace Ab.Wast
open Spec.Wast

theorem proper_iff {l : Lexeme} {ls : List Lexeme} :
    Proper (l :: ls) ↔ l.Valid ∧ (∀ y ∈ ls.head?, ¬ Joins l y) ∧ Proper ls := by
  cases ls with
  | nil => simp [Proper]
  | cons x ls => simp [Proper]

theorem text_pos {l : Lexeme} (h : l.Valid) : 0 < l.text.length := by
  cases l with
  | lparen => exact Nat.one_pos
  | rparen => exact Nat.one_pos
  | word s => exact List.length_pos_iff.2 h.1
  | ident s => exact Nat.succ_pos _
  | space s => exact List.length_pos_iff.2 h.1

theorem place_offset (pre : List Char) : (place ⟨0, 1, 1⟩ pre).offset = pre.length := by simp [place]

theorem place_word (st : Loc) (pre : List Char) : ∀ w : List Char, (∀ c ∈ w, c ≠ '\n') →
    place st (pre ++ w) = ⟨(place st pre).offset + w.length, (place st pre).line, (place st pre).column + w.length⟩ := by
  intro w
  induction w generalizing pre with
  | nil => intro _; simp
  | cons c w ih =>
    intro h
    have := ih (pre ++ [c]) (fun x hx => h x (by simp [hx]))
    rw [List.append_assoc, List.cons_append, List.nil_append] at this
    rw [this, place_snoc, if_neg (h c (by simp))]
    simp only [List.length_cons, Int.natCast_add, Int.natCast_one]
    congr 1 <;> omega

theorem word_no_newline {s : List Char} (h : ∀ c ∈ s, WordChar c) : ∀ c ∈ s, c ≠ '\n' := by
  intro c hc e
  subst e
  have := (allowed_iff '\n').2 (h _ hc)
  revert this
  decide

/-- Tokens lie where they are written. -/
theorem tokens_places : ∀ (ls : List Lexeme) (pre : List Char), Proper ls →
    ∀ t ∈ tokens ⟨0, 1, 1⟩ pre ls, (pre.length : Int) ≤ t.range.start.offset ∧ t.range.start.offset < t.range.stop.offset := by
  intro ls
  induction ls with
  | nil => intro pre _ t ht; cases ht
  | cons l ls ih =>
    intro pre hp t ht
    obtain ⟨hv, -, hp⟩ := proper_iff.1 hp
    have hpos := text_pos hv
    rw [tokens, List.mem_append] at ht
    rcases ht with ht | ht
    · cases hk : l.kind with
      | none => rw [hk] at ht; cases ht
      | some k =>
        rw [hk] at ht
        simp only [List.mem_cons, List.not_mem_nil, or_false] at ht
        subst ht
        simp only [place_offset, List.length_append]
        omega
    · have := ih (pre ++ l.text) hp t ht
      rw [List.length_append] at this
      omega

theorem tokens_within : ∀ (ls : List Lexeme) (pre : List Char),
    ∀ t ∈ tokens ⟨0, 1, 1⟩ pre ls, t.range.stop.offset ≤ ((pre.length + (write ls).length : Nat) : Int) := by
  intro ls
  induction ls with
  | nil => intro pre t ht; cases ht
  | cons l ls ih =>
    intro pre t ht
    rw [write_cons, List.length_append]
    rw [tokens, List.mem_append] at ht
    rcases ht with ht | ht
    · cases hk : l.kind with
      | none => rw [hk] at ht; cases ht
      | some k =>
        rw [hk] at ht
        simp only [List.mem_cons, List.not_mem_nil, or_false] at ht
        subst ht
        simp only [place_offset, List.length_append]
        omega
    · have := ih (pre ++ l.text) t ht
      rw [List.length_append] at this
      omega

theorem before_none {n : Nat} {ls : List Lexeme} {pre : List Char} (hp : Proper ls) (h : n ≤ pre.length) :
    before n (tokens ⟨0, 1, 1⟩ pre ls) = [] ∧ ∀ b ∈ tokens ⟨0, 1, 1⟩ pre ls, ¬ CutInside n b := by
  have := tokens_places ls pre hp
  constructor
  · unfold before
    rw [List.filter_eq_nil_iff]
    intro t ht
    have := this t ht
    simp only [decide_eq_true_eq]
    omega
  · intro b hb hc
    have := this b hb
    have := hc.1
    omega

theorem before_append (n : Nat) (a b : List Seen) : before n (a ++ b) = before n a ++ before n b := by
  simp [before]

/-- A token that is there goes before. -/
theorem cutTokens_append {n : Nat} {a whole cut : List Seen} (ha : ∀ t ∈ a, t.range.stop.offset ≤ n) (h : CutTokens n whole cut) :
    CutTokens n (a ++ whole) (a ++ cut) := by
  have e : before n a = a := by
    unfold before
    rw [List.filter_eq_self]
    intro t ht
    exact decide_eq_true (ha t ht)
  rcases h with ⟨h1, h2⟩ | ⟨b, x, hb, hc, hk, hl, h1⟩
  · refine .inl ⟨by rw [before_append, e, h1], ?_⟩
    intro b hb hc
    rcases List.mem_append.1 hb with hb | hb
    · have := ha b hb
      have := hc.2
      omega
    · exact h2 b hb hc
  · exact .inr ⟨b, x, List.mem_append.2 (.inr hb), hc, hk, hl, by rw [before_append, e, h1, List.append_assoc]⟩

theorem dollar_unreadable : Unreadable ['$'] := by
  refine ⟨'$', [], rfl, by decide, by decide, ?_, ?_, fun _ d u h => by cases h⟩
  · intro h; have := (allowed_iff '$').2 h; revert this; decide
  · intro h; have := (isSpace_iff '$').2 h; revert this; decide

/-- What is left of a word or an identifier. -/
theorem left_word {l : Lexeme} {k : Kind} (hk : l.kind = some k) (hkk : k = .NAME ∨ k = .IDENTIFIER) {n : Nat} (hn : n < l.text.length)
    (h0 : 0 < n) (hn1 : k = .IDENTIFIER → n ≠ 1) (hw : ∀ c ∈ l.text, c ≠ '\n') {l' : Lexeme} (hk' : l'.kind = some k)
    (ht : l'.text = l.text.take n) (pre : List Char) (ls : List Lexeme) (hp : Proper ls) :
    CutTokens (pre.length + n) (tokens ⟨0, 1, 1⟩ pre (l :: ls)) (tokens ⟨0, 1, 1⟩ pre [l']) := by
  have hlen : l'.text.length = n := by rw [ht, List.length_take]; omega
  refine .inr ⟨⟨k, ⟨place ⟨0, 1, 1⟩ pre, place ⟨0, 1, 1⟩ (pre ++ l.text)⟩, l.text⟩,
    ⟨k, ⟨place ⟨0, 1, 1⟩ pre, place ⟨0, 1, 1⟩ (pre ++ l'.text)⟩, l'.text⟩, ?_, ?_, ?_, ?_, ?_⟩
  · simp [tokens, hk]
  · unfold CutInside
    simp only [place_offset, List.length_append]
    omega
  · rcases hkk with rfl | rfl
    · exact .inl rfl
    · refine .inr ⟨rfl, ?_⟩
      have := hn1 rfl
      simp only [place_offset]
      omega
  · refine ⟨rfl, rfl, ?_, ?_⟩
    · simp only
      rw [place_word _ _ _ (fun c hc => hw c (by rw [ht] at hc; exact List.mem_of_mem_take hc)), hlen, place_offset]
      congr 1 <;> omega
    · simp only [place_offset]
      rw [ht]
      congr 1
      omega
  · have hb := (before_none (n := pre.length + n) (pre := pre ++ l.text) hp (by rw [List.length_append]; omega)).1
    have hs : before (pre.length + n) [(⟨k, ⟨place ⟨0, 1, 1⟩ pre, place ⟨0, 1, 1⟩ (pre ++ l.text)⟩, l.text⟩ : Seen)] = [] := by
      unfold before
      rw [List.filter_eq_nil_iff]
      intro t ht
      simp only [List.mem_cons, List.not_mem_nil, or_false] at ht
      subst ht
      simp only [place_offset, decide_eq_true_eq, List.length_append]
      omega
    simp only [tokens, hk, hk', before_append, hb, hs, List.append_nil, List.nil_append]

/-- Nothing is left of the first lexeme. -/
theorem left_none {l : Lexeme} {n : Nat} (hn : n < l.text.length) (h : n = 0 ∨ l.kind = none ∨ l.kind = some .IDENTIFIER ∧ n = 1)
    (pre : List Char) (ls : List Lexeme) (hp : Proper ls) : CutTokens (pre.length + n) (tokens ⟨0, 1, 1⟩ pre (l :: ls)) [] := by
  obtain ⟨hb, hi⟩ := before_none (n := pre.length + n) (pre := pre ++ l.text) hp (by rw [List.length_append]; omega)
  refine .inl ⟨?_, ?_⟩
  · rw [tokens, before_append, hb, List.append_nil]
    symm
    unfold before
    rw [List.filter_eq_nil_iff]
    intro t ht
    cases hk : l.kind with
    | none => rw [hk] at ht; cases ht
    | some k =>
      rw [hk] at ht
      simp only [List.mem_cons, List.not_mem_nil, or_false] at ht
      subst ht
      simp only [place_offset, decide_eq_true_eq, List.length_append]
      omega
  · intro b hb hc
    rw [tokens, List.mem_append] at hb
    rcases hb with hb | hb
    · cases hk : l.kind with
      | none => rw [hk] at hb; cases hb
      | some k =>
        rw [hk] at hb h
        simp only [List.mem_cons, List.not_mem_nil, or_false] at hb
        subst hb
        rcases h with rfl | h | ⟨h1, rfl⟩
        · have := hc.1
          simp only [place_offset] at this
          omega
        · cases h
        · injection h1 with h1
          refine ⟨h1, ?_⟩
          simp only [place_offset]
          omega
    · exact absurd hc (hi b hb)

/-- What is left of lexemes are lexemes, and perhaps a `$`. -/
theorem cut_lexemes : ∀ (ls : List Lexeme) (pre : List Char) (n : Nat), Proper ls → n ≤ (write ls).length →
    ∃ ls' rest, (write ls).take n = write ls' ++ rest ∧ Proper ls' ∧ (rest = [] ∨ Unreadable rest) ∧
      (∀ x : Lexeme, (∀ y ∈ ls.head?, ¬ Joins x y) → ∀ y ∈ ls'.head?, ¬ Joins x y) ∧
      CutTokens (pre.length + n) (tokens ⟨0, 1, 1⟩ pre ls) (tokens ⟨0, 1, 1⟩ pre ls') := by
  intro ls
  induction ls with
  | nil =>
    intro pre n hp hn
    exact ⟨[], [], by simp [write], trivial, .inl rfl, fun x h => h, .inl ⟨rfl, fun b hb => by cases hb⟩⟩
  | cons l ls ih =>
    intro pre n hp hn
    obtain ⟨hv, hj, hq⟩ := proper_iff.1 hp
    clear hp
    rw [write_cons, List.length_append] at hn
    rcases Nat.lt_or_ge n l.text.length with hlt | hge
    · have ht : (write (l :: ls)).take n = l.text.take n := by
        rw [write_cons, List.take_append_of_le_length (by omega)]
      rcases Nat.eq_zero_or_pos n with rfl | hpos
      · exact ⟨[], [], by simp [write], trivial, .inl rfl, fun x _ y hy => by simp at hy, left_none hlt (.inl rfl) pre ls hq⟩
      · cases l with
        | lparen => simp [Lexeme.text] at hlt; omega
        | rparen => simp [Lexeme.text] at hlt; omega
        | word s =>
          have hlt' : n < s.length := hlt
          refine ⟨[.word (s.take n)], [], ?_, ?_, .inl rfl, ?_, ?_⟩
          · rw [ht, write_single, List.append_nil]; rfl
          · refine ⟨?_, fun c hc => hv.2 c (List.mem_of_mem_take hc)⟩
            intro e
            have := congrArg List.length e
            rw [List.length_take, List.length_nil] at this
            omega
          · intro x h y hy
            simp only [List.head?_cons, Option.mem_some_iff] at hy h
            subst hy
            have := h _ rfl
            cases x <;> exact this
          · exact left_word (k := .NAME) rfl (.inl rfl) hlt hpos (by intro h; cases h) (word_no_newline hv.2) rfl rfl pre ls hq
        | ident s =>
          have hlt' : n < s.length + 1 := hlt
          rcases Nat.lt_or_ge 1 n with h1 | h1
          · obtain ⟨m, rfl⟩ : ∃ m, n = m + 1 := ⟨n - 1, by omega⟩
            refine ⟨[.ident (s.take m)], [], ?_, ?_, .inl rfl, ?_, ?_⟩
            · rw [ht, write_single, List.append_nil]; rfl
            · refine ⟨?_, fun c hc => hv.2 c (List.mem_of_mem_take hc)⟩
              intro e
              have := congrArg List.length e
              rw [List.length_take, List.length_nil] at this
              omega
            · intro x h y hy
              simp only [List.head?_cons, Option.mem_some_iff] at hy h
              subst hy
              have := h _ rfl
              cases x <;> exact this
            · refine left_word (k := .IDENTIFIER) rfl (.inr rfl) hlt hpos (by intro _; omega) ?_ rfl rfl pre ls hq
              intro c hc
              rcases List.mem_cons.1 hc with rfl | hc
              · decide
              · exact word_no_newline hv.2 c hc
          · have h1 : n = 1 := by omega
            subst h1
            refine ⟨[], ['$'], ?_, trivial, .inr dollar_unreadable, fun x _ y hy => by simp at hy, left_none hlt (.inr (.inr ⟨rfl, rfl⟩)) pre ls hq⟩
            rw [ht]
            rfl
        | space s =>
          have hlt' : n < s.length := hlt
          refine ⟨[.space (s.take n)], [], ?_, ?_, .inl rfl, ?_, left_none hlt (.inr (.inl rfl)) pre ls hq⟩
          · rw [ht, write_single, List.append_nil]; rfl
          · refine ⟨?_, fun c hc => hv.2 c (List.mem_of_mem_take hc)⟩
            intro e
            have := congrArg List.length e
            rw [List.length_take, List.length_nil] at this
            omega
          · intro x h y hy
            simp only [List.head?_cons, Option.mem_some_iff] at hy h
            subst hy
            have := h _ rfl
            cases x <;> exact this
    · obtain ⟨ls', rest, he, hp', hr, hh, hc⟩ := ih (pre ++ l.text) (n - l.text.length) hq (by omega)
      refine ⟨l :: ls', rest, ?_, proper_iff.2 ⟨hv, hh l hj, hp'⟩, hr, fun x h => h, ?_⟩
      · rw [write_cons, write_cons, List.take_append, List.take_of_length_le hge, he, List.append_assoc]
      · rw [List.length_append, show pre.length + l.text.length + (n - l.text.length) = pre.length + n from by omega] at hc
        rw [tokens, tokens]
        refine cutTokens_append ?_ hc
        intro t ht
        cases hk : l.kind with
        | none => rw [hk] at ht; cases ht
        | some k =>
          rw [hk] at ht
          simp only [List.mem_cons, List.not_mem_nil, or_false] at ht
          subst ht
          simp only [place_offset, List.length_append]
          omega

theorem unreadable_take {s : List Char} (h : Unreadable s) (n : Nat) : s.take n = [] ∨ Unreadable (s.take n) := by
  obtain ⟨c, t, rfl, h1, h2, h3, h4, h5⟩ := h
  cases n with
  | zero => exact .inl rfl
  | succ n =>
    refine .inr ⟨c, t.take n, rfl, h1, h2, h3, h4, ?_⟩
    intro hc d u e
    have := h5 hc
    cases t with
    | nil => simp at e
    | cons d' u' =>
      cases n with
      | zero => simp at e
      | succ n =>
        rw [List.take_succ_cons] at e
        injection e with e1 e2
        exact e1 ▸ this d' u' rfl

/-- The tokens of any text. -/
theorem lex_any (text : Nat → List Char) (b : Nat) (ls : List Lexeme) (rest : List Char) (junk : Loc) (hp : Proper ls)
    (hr : rest = [] ∨ Unreadable rest) (ht : text b = write ls ++ rest) (hn : (text b).length < 2147483647) :
    ∃ s, lex text (Lexer.make junk Loc.first) ⟨b, 0⟩ (text b).length true = .ok s ∧
      s.output.map (seen text) = tokens ⟨0, 1, 1⟩ [] ls := by
  rcases hr with rfl | hr
  · obtain ⟨s, h1, h2, -⟩ := C72_tokens text b ls junk hp (by rw [ht, List.append_nil]) hn
    exact ⟨s, h1, h2⟩
  · obtain ⟨s, h1, h2, -⟩ := C73_the_rest_is_lost text b ls rest junk hp hr ht hn
    exact ⟨s, h1, h2⟩

/-- **C130.** Lexing what is left of any text below two gigabytes, whatever it is made of, when everything from
place `n` on is lost: the tokens are exactly those of the whole text that end at `n` or before, in the same
places, and what is left of the word or identifier that `n` is inside of. -/
theorem C130_tokens (text : Nat → List Char) (whole cut n : Nat) (junk junk' : Loc) (hcut : text cut = (text whole).take n)
    (hn : n ≤ (text whole).length) (hlen : (text whole).length < 2147483647) :
    ∃ s s', lex text (Lexer.make junk Loc.first) ⟨whole, 0⟩ (text whole).length true = .ok s ∧
      lex text (Lexer.make junk' Loc.first) ⟨cut, 0⟩ (text cut).length true = .ok s' ∧
      CutTokens n (s.output.map (seen text)) (s'.output.map (seen text)) := by
  obtain ⟨ls, rest, ht, hp, hr⟩ := C73_every_text (text whole)
  obtain ⟨s, h1, h2⟩ := lex_any text whole ls rest junk hp hr ht hlen
  have hcl : (text cut).length < 2147483647 := by rw [hcut, List.length_take]; omega
  rcases Nat.le_total n (write ls).length with hle | hle
  · obtain ⟨ls', rest', he, hp', hr', -, hc⟩ := cut_lexemes ls [] n hp hle
    obtain ⟨s', h3, h4⟩ := lex_any text cut ls' rest' junk' hp' hr' (by rw [hcut, ht, List.take_append_of_le_length hle, he]) hcl
    refine ⟨s, s', h1, h3, ?_⟩
    rw [h2, h4]
    rwa [List.length_nil, Nat.zero_add] at hc
  · obtain ⟨s', h3, h4⟩ := lex_any text cut ls (rest.take (n - (write ls).length)) junk' hp
      (hr.elim (fun h => .inl (by rw [h, List.take_nil])) (fun h => unreadable_take h _))
      (by rw [hcut, ht, List.take_append, List.take_of_length_le hle]) hcl
    refine ⟨s, s', h1, h3, ?_⟩
    rw [h2, h4]
    have hin : ∀ t ∈ tokens ⟨0, 1, 1⟩ [] ls, t.range.stop.offset ≤ n := by
      intro t ht
      have := tokens_within ls [] t ht
      rw [List.length_nil] at this
      omega
    exact .inl ⟨by unfold before; rw [List.filter_eq_self.2]; intro t ht; exact decide_eq_true (hin t ht),
      fun b hb hc => absurd (hin b hb) (by have := hc.2; omega)⟩

/-- `(module $f` loses its last character, its last two, and everything after `(mod`. -/
example : (∃ s s', lex (fun k => if k = 0 then "(module $f".toList else "(module $".toList) (Lexer.make Loc.first Loc.first) ⟨0, 0⟩ 10 true = .ok s ∧
      lex (fun k => if k = 0 then "(module $f".toList else "(module $".toList) (Lexer.make Loc.first Loc.first) ⟨1, 0⟩ 9 true = .ok s' ∧
      s.output.length = 3 ∧ s'.output.length = 2) ∧
    LeftOf 4 ⟨.NAME, ⟨⟨1, 1, 2⟩, ⟨7, 1, 8⟩⟩, "module".toList⟩ ⟨.NAME, ⟨⟨1, 1, 2⟩, ⟨4, 1, 5⟩⟩, "mod".toList⟩ ∧
    tokens ⟨0, 1, 1⟩ [] [.lparen, .word "mod".toList] =
      before 4 (tokens ⟨0, 1, 1⟩ [] [.lparen, .word "module".toList, .space [' '], .ident ['f']]) ++
        [⟨.NAME, ⟨⟨1, 1, 2⟩, ⟨4, 1, 5⟩⟩, "mod".toList⟩] := by
  refine ⟨?_, ⟨rfl, rfl, rfl, by decide⟩, by decide +kernel⟩
  obtain ⟨s, s', h1, h2, h3⟩ := C130_tokens (fun k => if k = 0 then "(module $f".toList else "(module $".toList) 0 1 9 Loc.first Loc.first
    (by decide) (by decide) (by decide)
  refine ⟨s, s', h1, h2, ?_⟩
  have e1 : lex (fun k => if k = 0 then "(module $f".toList else "(module $".toList) (Lexer.make Loc.first Loc.first) ⟨0, 0⟩ 10 true = .ok s := h1
  have e2 : lex (fun k => if k = 0 then "(module $f".toList else "(module $".toList) (Lexer.make Loc.first Loc.first) ⟨1, 0⟩ 9 true = .ok s' := h2
  constructor
  · have : (match lex (fun k => if k = 0 then "(module $f".toList else "(module $".toList) (Lexer.make Loc.first Loc.first) ⟨0, 0⟩ 10 true with
      | .ok s => s.output.length | _ => 0) = 3 := by decide +kernel
    rwa [e1] at this
  · have : (match lex (fun k => if k = 0 then "(module $f".toList else "(module $".toList) (Lexer.make Loc.first Loc.first) ⟨1, 0⟩ 9 true with
      | .ok s => s.output.length | _ => 0) = 2 := by decide +kernel
    rwa [e2] at this

end Ab.Wast
