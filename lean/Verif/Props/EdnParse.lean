import Verif.Proof.EdnParse2
import Verif.Props.EdnLexer
/-! C39: when parsing EDN returns. -/
namespace Ab.Edn

open Spec Re

theorem digitLoop_total : ∀ (ds : List Byte) (v : Int) (b : Bool),
    (∃ o, digitLoop ds v b = .ok o) ∨ ∃ w, digitLoop ds v b = .ub w
  | [], v, b => Or.inl ⟨_, rfl⟩
  | c :: cs, v, b => by
    rw [digitLoop]
    split
    · simp only
      split
      · exact Or.inr ⟨_, rfl⟩
      · split
        · exact Or.inr ⟨_, rfl⟩
        · exact digitLoop_total cs _ true
    · exact Or.inl ⟨_, rfl⟩

theorem parseInteger_ne_fuel (t : List Byte) : parseInteger t ≠ .fuel := by
  unfold parseInteger
  split
  rename_i neg rest heq
  rcases digitLoop_total rest 0 false with ⟨o, h⟩ | ⟨w, h⟩ <;> rw [h]
  · cases o <;> (intro h; cases h)
  · intro h; cases h

theorem realStep_ne_fuel {R} (A : Arith R) (s v c) : realStep A s v c ≠ .fuel := by
  have hx : ∀ (v : RealVars R) s, (onExDigit v c >>= fun v => Outcome.ok (some ((s : RealState), v))) ≠ .fuel := by
    intro v s
    unfold onExDigit
    simp only
    split
    · intro h; cases h
    · split <;> (intro h; cases h)
  cases s <;> simp only [realStep] <;> (repeat' split) <;> first | exact hx _ _ | (intro h; cases h)

theorem realLoop_ne_fuel {R} (A : Arith R) : ∀ (t : List Byte) s v, realLoop A s v t ≠ .fuel
  | [], s, v => by intro h; cases h
  | c :: cs, s, v => by
    rw [realLoop]
    have := realStep_ne_fuel A s v c
    cases h : realStep A s v c with
    | ok r =>
      simp only [Outcome.ok_bind]
      cases r with
      | none => intro h; cases h
      | some r => exact realLoop_ne_fuel A cs _ _
    | fuel => exact absurd h this
    | _ => intro h; cases h

theorem parseReal_ne_fuel {R} (A : Arith R) (t : List Byte) : parseReal A t ≠ .fuel := by
  unfold parseReal
  have := realLoop_ne_fuel A t .start ⟨false, A.ofInt 1, 0, false, A.ofInt 0⟩
  cases h : realLoop A .start ⟨false, A.ofInt 1, 0, false, A.ofInt 0⟩ t with
  | ok r =>
    simp only [Outcome.ok_bind]
    split <;> (intro h; cases h)
  | fuel => exact absurd h this
  | _ => intro h; cases h

theorem toks_ne_fuel {L : Lib} : ∀ (ls : List (Rule × List Byte)) (pos : Nat), toks L pos ls ≠ .fuel
  | [], pos => by intro h; cases h
  | (r, t) :: ls, pos => by
    have hk : tokenOf L r t ≠ .fuel := by
      cases r <;> simp only [tokenOf] <;> first | (intro h; cases h; done) | skip
      · have := parseReal_ne_fuel L.arith t
        cases hp : parseReal L.arith t <;> first | (intro h; cases h; done) | exact absurd hp this
      · have := parseInteger_ne_fuel t
        cases hp : parseInteger t <;> first | (intro h; cases h; done) | exact absurd hp this
    have ih := toks_ne_fuel (L := L) ls (pos + t.length)
    simp only [toks]
    cases hko : tokenOf L r t with
    | ok k =>
      simp only [Outcome.ok_bind]
      cases hto : toks L (pos + t.length) ls with
      | ok ts => cases k <;> (intro h; cases h)
      | fuel => exact absurd hto ih
      | _ => intro h; cases h
    | fuel => exact absurd hko hk
    | _ => intro h; cases h

/-- C39, exactly: lexing any text terminates. Parsing then returns a document – always the same – when no map is open at
the end of the text, throws `fmt::format_error` when a `}` stands where it closes a list or vector or where a map value is
expected (or a `)` stands there), and otherwise never returns. Missing: the texts of the last two kinds, for which the
property is false. -/
theorem C39_parse_returns_throws_or_runs_partial (L : Lib) (hL : Lawful L) (tab : SymTab) (s : List Byte) :
    lex L s ≠ .fuel ∧
    ∀ ts l, lex L s = .ok (ts, l) →
      (verdict [] ts = .returns → ∃ d, ∀ fuel, 2 * ts.length + 2 ≤ fuel → parse L fuel tab s = .ok d) ∧
      (verdict [] ts = .throws → ∀ fuel, 2 * ts.length + 2 ≤ fuel →
        parse L fuel tab s = .throw "unmatched '}' in format string") ∧
      (verdict [] ts = .runs → ∀ fuel, parse L fuel tab s = .fuel) := by
  constructor
  · obtain ⟨ls, rest, h⟩ := lexemes_exists s
    rw [lex_spec L h]
    cases ht : toks L 0 ls with
    | ok ts => intro h; cases h
    | fuel => exact absurd ht (toks_ne_fuel ls 0)
    | _ => intro h; cases h
  · intro ts l hl
    have good : ∀ fuel, (∃ d, parse L fuel tab s = .ok d ∧ verdict [] ts = .returns) ∨
        (parse L fuel tab s = .fuel ∧ parseTop L fuel ⟨ts, l.pos, tab, []⟩ [] = .fuel) ∨
        (parse L fuel tab s = .throw fmtBrace ∧ verdict [] ts = .throws) := by
      intro fuel
      unfold parse
      rw [hl]
      simp only [Outcome.ok_bind]
      rcases top_good hL fuel ⟨ts, l.pos, tab, []⟩ [] with ⟨s, x, h, ho⟩ | h | ⟨h, ho⟩
      · rw [h]; exact Or.inl ⟨_, rfl, ho⟩
      · rw [h]; exact Or.inr (Or.inl ⟨rfl, rfl⟩)
      · rw [h]; exact Or.inr (Or.inr ⟨rfl, ho⟩)
    refine ⟨?_, ?_, ?_⟩
    · intro ho
      have hb : ∀ fuel, 2 * ts.length + 2 ≤ fuel → ∃ d, parse L fuel tab s = .ok d := by
        intro fuel hf
        rcases good fuel with ⟨d, h, -⟩ | ⟨-, h⟩ | ⟨-, h⟩
        · exact ⟨d, h⟩
        · exact absurd h (top_ends hL fuel _ _ hf (by simp only [ho]; intro h; cases h))
        · rw [ho] at h; cases h
      obtain ⟨d, hd⟩ := hb _ (Nat.le_refl _)
      exact ⟨d, fun fuel hf => parse_mono hd hf⟩
    · intro ho fuel hf
      rcases good fuel with ⟨d, -, h⟩ | ⟨-, h⟩ | ⟨h, -⟩
      · rw [ho] at h; cases h
      · exact absurd h (top_ends hL fuel _ _ hf (by simp only [ho]; intro h; cases h))
      · exact h
    · intro ho fuel
      rcases good fuel with ⟨d, -, h⟩ | ⟨h, -⟩ | ⟨-, h⟩
      · rw [ho] at h; cases h
      · exact h
      · rw [ho] at h; cases h

/-- C39 fails: parsing `{` never returns. -/
theorem C39_negation (L : Lib) (hL : Lawful L) (tab : SymTab) : ∀ fuel, parse L fuel tab [123] = .fuel :=
  ((C39_parse_returns_throws_or_runs_partial L hL tab [123]).2 [⟨.lbrace, [123], 0, 1⟩]
    ⟨[], 1, false, []⟩ rfl).2.2 (by decide)

/-- C39 fails: parsing `(}` throws. -/
theorem C39_negation_throws (L : Lib) (hL : Lawful L) (tab : SymTab) : ∀ fuel, 6 ≤ fuel →
    parse L fuel tab [40, 125] = .throw "unmatched '}' in format string" :=
  ((C39_parse_returns_throws_or_runs_partial L hL tab [40, 125]).2 [⟨.lparen, [40], 0, 1⟩, ⟨.rbrace, [125], 1, 2⟩]
    ⟨[], 2, false, []⟩ rfl).2.1 (by decide)

/-- The messages the parser logs format to themselves; those with a brace (ab-edn-parser.cpp:50, 90, 146, 149) throw. -/
example : (∀ m ∈ ["Unexpected end of file while parsing list", "Unexpected end of file while parsing vector",
      "Unexpected ']' terminating list", "Unexpected ')' terminating vector", "Unexpected ')' terminating map",
      "Unexpected ']' terminating vector", "Unexpected end of file while parsing map key", "failed to parse map key",
      "Unexpected end of file while parsing map value", "key not followed by value in map",
      "duplicate key discovered in map", "unexepected closing delimiter."], fmtFormat m.toList = .ok m.toList) ∧
    (∀ m ∈ ["Unexpected '}' terminating list", "Unexpected '}' terminating vector",
      "Unexpected '}' while parsing map value"], fmtFormat m.toList = .throw fmtBrace) := by
  decide +kernel

/-- C39 for texts without braces: parsing returns a document, or has undefined behaviour in an integer
literal, or the exponent of a real literal, that is too large. -/
theorem C39_no_brace_partial (L : Lib) (hL : Lawful L) (tab : SymTab) (s : List Byte) (h : 123#8 ∉ s) (h' : 125#8 ∉ s) :
    ∃ fuel, (∃ d, ∀ fuel', fuel ≤ fuel' → parse L fuel' tab s = .ok d) ∨ lex L s = .ub "signed overflow" := by
  obtain ⟨ls, rest, hlex⟩ := lexemes_exists s
  cases hl : lex L s with
  | ok p =>
    obtain ⟨ts, l⟩ := p
    have hno : ∀ t ∈ ts, t.kind ≠ .lbrace ∧ t.kind ≠ .rbrace := by
      intro t ht
      rw [lex_spec L hlex] at hl
      obtain ⟨ts', htk, he⟩ := Outcome.bind_eq_ok.mp hl
      injection he with he; injection he with he _; subst he
      obtain ⟨r, h1, h2⟩ := tokensOf_mem (toks_tokensOf htk) ht
      obtain ⟨re, h3, h4⟩ := lexemes_mem hlex _ h1
      have hin : ∀ c : Byte, t.text = [c] → c ∈ s := by
        intro c htxt
        rw [(lexemes_text hlex).1]
        apply List.mem_append_left
        rw [List.mem_flatten]
        refine ⟨t.text, List.mem_map.mpr ⟨_, h1, rfl⟩, ?_⟩
        rw [htxt]; simp
      constructor
      · intro hk
        rw [hk] at h2
        have hr : r = .lbrace := by
          cases r <;> simp [tokenOf] at h2
          · obtain ⟨v, -, hx⟩ := Outcome.bind_eq_ok.mp h2
            injection hx with hx; injection hx with hx; cases hx
          · obtain ⟨v, -, hx⟩ := Outcome.bind_eq_ok.mp h2
            injection hx with hx; injection hx with hx; cases hx
          · rfl
        subst hr
        have hre := rule_unique h3
        injection hre with hre; injection hre with _ hre
        rw [← hre] at h4
        exact h (hin _ (lang_ch.mp h4))
      · intro hk
        rw [hk] at h2
        have hr : r = .rbrace := by
          cases r <;> simp [tokenOf] at h2
          · obtain ⟨v, -, hx⟩ := Outcome.bind_eq_ok.mp h2
            injection hx with hx; injection hx with hx; cases hx
          · obtain ⟨v, -, hx⟩ := Outcome.bind_eq_ok.mp h2
            injection hx with hx; injection hx with hx; cases hx
          · rfl
        subst hr
        have hre := rule_unique h3
        injection hre with hre; injection hre with _ hre
        rw [← hre] at h4
        exact h' (hin _ (lang_ch.mp h4))
    have hopen : ∀ (ts : List Token) (st : List Frame), (∀ t ∈ ts, t.kind ≠ .lbrace ∧ t.kind ≠ .rbrace) →
        (∀ f ∈ st, f = .seq) → verdict st ts = .returns := by
      intro ts
      induction ts with
      | nil =>
        intro st _ hst
        have : st.all (· = .seq) = true := by simpa using hst
        simp only [verdict, openAfter, this, if_true]
      | cons t ts ih =>
        intro st ht hst
        have hdat : datum st = st := by
          cases st with
          | nil => rfl
          | cons f st => rw [hst f (by simp)]; rfl
        have hne := ht t (by simp)
        have ih' := fun st' => ih st' (fun x hx => ht x (by simp [hx]))
        rw [verdict_cons]
        cases hk : t.kind with
        | lbrace => exact absurd hk hne.1
        | rbrace => exact absurd hk hne.2
        | lparen | lbracket =>
          simp only [tokenStep, hdat]
          refine ih' _ (fun f hf => ?_)
          rcases List.mem_cons.mp hf with hf | hf
          · exact hf
          · exact hst f hf
        | rparen | rbracket =>
          cases st with
          | nil => exact ih' [] hst
          | cons g st =>
            have hg := hst g (by simp)
            subst hg
            exact ih' st (fun f hf => hst f (by simp [hf]))
        | _ =>
          simp only [tokenStep, hdat]
          exact ih' _ hst
    obtain ⟨d, hd⟩ := ((C39_parse_returns_throws_or_runs_partial L hL tab s).2 ts l hl).1
      (hopen ts [] hno (by simp))
    exact ⟨_, Or.inl ⟨d, hd⟩⟩
  | _ =>
    refine ⟨0, Or.inr ?_⟩
    rw [← hl, lex_spec L hlex]
    have hto : ∀ (ls : List (Rule × List Byte)) (pos : Nat), (∀ x ∈ ls, ∃ re, (x.1, re) ∈ rules ∧ Lang re x.2) →
        (∃ ts, toks L pos ls = .ok ts) ∨ toks L pos ls = .ub "signed overflow" := by
      intro ls
      induction ls with
      | nil => intro pos _; exact Or.inl ⟨[], rfl⟩
      | cons x ls ih =>
        intro pos hx
        obtain ⟨r, t⟩ := x
        have hk : (∃ k, tokenOf L r t = .ok k) ∨ tokenOf L r t = .ub "signed overflow" := by
          cases r <;> first | exact Or.inl ⟨_, rfl⟩ | skip
          · obtain ⟨re, h3, h4⟩ := hx _ List.mem_cons_self
            have hre := rule_unique h3
            injection hre with hre; injection hre with _ hre
            rw [← hre] at h4
            obtain ⟨neg, ints, frac, ex, hv⟩ := real_text (real_iff.mp h4)
            simp only [tokenOf, parseReal_spec L.arith hv]
            split
            · exact Or.inl ⟨_, rfl⟩
            · exact Or.inr rfl
          · obtain ⟨re, h3, h4⟩ := hx _ List.mem_cons_self
            rw [integer_rule h3] at h4
            obtain ⟨v, hv⟩ := integer_text h4
            simp only [tokenOf, parseInteger_spec hv]
            split
            · exact Or.inl ⟨_, rfl⟩
            · exact Or.inr rfl
        simp only [toks]
        rcases hk with ⟨k, hk⟩ | hk <;> rw [hk]
        · simp only [Outcome.ok_bind]
          rcases ih (pos + t.length) (fun y hy => hx y (List.mem_cons_of_mem _ hy)) with ⟨ts, h⟩ | h <;> rw [h]
          · cases k <;> exact Or.inl ⟨_, rfl⟩
          · exact Or.inr rfl
        · exact Or.inr rfl
    rw [lex_spec L hlex] at hl
    rcases hto ls 0 (lexemes_mem hlex) with ⟨ts, h⟩ | h
    · rw [h] at hl; cases hl
    · rw [h]; rfl

/-- `{a (1] }` returns (a wrong closer inside a map), `{a }}` throws, `{a (` never returns. -/
example : (∃ ts l, lex demo [123, 97, 32, 40, 49, 93, 32, 125] = .ok (ts, l) ∧ verdict [] ts = .returns) ∧
    (∃ ts l, lex demo [123, 97, 32, 125, 125] = .ok (ts, l) ∧ verdict [] ts = .throws) ∧
    (∃ ts l, lex demo [123, 97, 32, 40] = .ok (ts, l) ∧ verdict [] ts = .runs) :=
  ⟨⟨_, _, rfl, by decide⟩, ⟨_, _, rfl, by decide⟩, ⟨_, _, rfl, by decide⟩⟩

end Ab.Edn
