import Verif.Proof.EdnSim
import Verif.Proof.EdnReal
import Verif.Props.EdnNode
/-! C41, C42, C50, C51, C52: the EDN lexer. -/
namespace Ab.Edn

open Spec Re

/-! ### C50 -/

theorem tokens_of {L : Lib} : ∀ {ls : List (Rule × List Byte)} {pos ts}, TokensOf L pos ls ts →
    (∀ x ∈ ls, ∃ re, (x.1, re) ∈ rules ∧ Lang re x.2) → Tokens L pos ls ts
  | [], pos, ts, h, _ => by rw [show ts = [] from h]; exact .nil
  | (r, t) :: ls, pos, ts, h, hm => by
    simp only [TokensOf] at h
    have hm' : ∀ x ∈ ls, ∃ re, (x.1, re) ∈ rules ∧ Lang re x.2 := fun x hx => hm x (List.mem_cons_of_mem _ hx)
    split at h
    · rename_i hs; exact .skip hs (tokens_of h hm')
    · obtain ⟨k, ts', rfl, hk, h⟩ := h
      refine .token ?_ (tokens_of h hm')
      cases r <;> simp only [tokenOf] at hk
      case real =>
        obtain ⟨re, h1, h2⟩ := hm _ List.mem_cons_self
        have hre := rule_unique h1
        injection hre with hre; injection hre with _ hre
        rw [← hre] at h2
        obtain ⟨neg, ints, frac, ex, hv⟩ := real_text (real_iff.mp h2)
        rw [parseReal_spec L.arith hv] at hk
        split at hk
        · rename_i hlt
          injection hk with hk; injection hk with hk
          subst hk; exact .real hv hlt
        · cases hk
      case integer =>
        obtain ⟨re, h1, h2⟩ := hm _ List.mem_cons_self
        rw [integer_rule h1] at h2
        obtain ⟨v, hv⟩ := integer_text h2
        rw [parseInteger_spec hv] at hk
        split at hk
        · rename_i hlt
          injection hk with hk; injection hk with hk
          subst hk; exact .integer hv hlt
        · cases hk
      all_goals first | (injection hk with hk; cases hk; done) | (injection hk with hk; injection hk with hk; subst hk; constructor)

theorem toks_total {L : Lib} : ∀ (ls : List (Rule × List Byte)) (pos : Nat),
    (∀ x ∈ ls, ∃ re, (x.1, re) ∈ rules ∧ Lang re x.2) →
    (∀ x ∈ ls, x.1 = .integer → ∀ v, IntText x.2 v → v.natAbs < 2^63) →
    (∀ x ∈ ls, x.1 = .real → ∀ neg ints frac ex, RealText x.2 neg ints frac ex → ex.natAbs < 2^63) →
    ∃ ts, toks L pos ls = .ok ts
  | [], pos, _, _, _ => ⟨[], rfl⟩
  | (r, t) :: ls, pos, hm, hi, hr => by
    obtain ⟨ts, h⟩ := toks_total (L := L) ls (pos + t.length) (fun x hx => hm x (List.mem_cons_of_mem _ hx))
      (fun x hx => hi x (List.mem_cons_of_mem _ hx)) (fun x hx => hr x (List.mem_cons_of_mem _ hx))
    have hk : ∃ k, tokenOf L r t = .ok k := by
      cases r <;> first | exact ⟨_, rfl⟩ | skip
      · obtain ⟨re, h1, h2⟩ := hm _ List.mem_cons_self
        have hre := rule_unique h1
        injection hre with hre; injection hre with _ hre
        rw [← hre] at h2
        obtain ⟨neg, ints, frac, ex, hv⟩ := real_text (real_iff.mp h2)
        simp only [tokenOf, parseReal_spec L.arith hv]
        rw [if_pos (hr _ List.mem_cons_self rfl _ _ _ _ hv)]
        exact ⟨_, rfl⟩
      · obtain ⟨re, h1, h2⟩ := hm _ List.mem_cons_self
        rw [integer_rule h1] at h2
        obtain ⟨v, hv⟩ := integer_text h2
        simp only [tokenOf, parseInteger_spec hv]
        rw [if_pos (hi _ List.mem_cons_self rfl v hv)]
        exact ⟨_, rfl⟩
    obtain ⟨k, hk⟩ := hk
    simp only [toks, hk, Outcome.ok_bind, h]
    cases k <;> exact ⟨_, rfl⟩

/-- C50: every text divides, in exactly one way, into pieces each of which is the longest token of the
grammar where it starts and of the most preferred kind; no token starts at what is left over; and the tokens
the lexer gives are those of the pieces, in order, with their values and true source ranges. It does give
them, unless an integer literal (C41) or the exponent of a real literal (C85) is too large. -/
theorem C50_tokens_are_longest_matches (L : Lib) (s : List Byte) :
    ∃ ls rest, Chunks s ls rest ∧ (∀ ls' rest', Chunks s ls' rest' → ls' = ls ∧ rest' = rest) ∧
      s = (ls.map (·.2)).flatten ++ rest ∧ NoToken rest ∧
      ((∀ x ∈ ls, x.1 = .integer → ∀ v, IntText x.2 v → v.natAbs < 2^63) →
        (∀ x ∈ ls, x.1 = .real → ∀ neg ints frac ex, RealText x.2 neg ints frac ex → ex.natAbs < 2^63) →
        ∃ ts l, lex L s = .ok (ts, l)) ∧
      ∀ ts l, lex L s = .ok (ts, l) →
        Tokens L 0 ls ts ∧
        (∀ t ∈ ts, (s.drop t.lo).take t.text.length = t.text ∧ t.hi = t.lo + t.text.length ∧ t.hi ≤ s.length) ∧
        ts.Pairwise (fun a b => a.hi ≤ b.lo) := by
  obtain ⟨ls, rest, h⟩ := lexemes_exists s
  obtain ⟨h1, h2, h3⟩ := lexemes_text h
  refine ⟨ls, rest, lexemes_iff.mp h, ?_, h1, noMatch_iff.mp h3, ?_, ?_⟩
  · intro ls' rest' h'
    obtain ⟨a, b⟩ := lexemes_unique h (lexemes_iff.mpr h')
    exact ⟨a.symm, b.symm⟩
  · intro hi hr
    obtain ⟨ts, ht⟩ := toks_total (L := L) ls 0 (lexemes_mem h) hi hr
    rw [lex_spec L h, ht]
    exact ⟨_, _, rfl⟩
  · intro ts l hl
    rw [lex_spec L h] at hl
    obtain ⟨ts', ht, he⟩ := Outcome.bind_eq_ok.mp hl
    injection he with he; injection he with he _; subst he
    have hto := toks_tokensOf ht
    refine ⟨tokens_of hto (lexemes_mem h), ?_, (tokensOf_sorted hto).1⟩
    intro t htm
    obtain ⟨-, h5, h6, h7⟩ := tokensOf_slice (pre := []) rest hto htm
    refine ⟨?_, h6, ?_⟩
    · rw [h1]; simpa using h7
    · rw [h1]; simp at h5 ⊢; omega

/-- `(a 12);x⏎nil` has five tokens. -/
example : lex demo [40, 97, 32, 49, 50, 41, 59, 120, 10, 110, 105, 108] =
    .ok ([⟨.lparen, [40], 0, 1⟩, ⟨.symbol, [97], 1, 2⟩, ⟨.integer 12#64, [49, 50], 3, 5⟩, ⟨.rparen, [41], 5, 6⟩,
      ⟨.nil, [110, 105, 108], 9, 12⟩], ⟨[], 12, false, [9]⟩) := by rfl

/-! ### C41 -/

theorem lex_integer (L : Lib) {t : List Byte} (h : Lang integerRe t) :
    lex L t = parseInteger t >>= fun v =>
      .ok ([⟨.integer v, t, 0, t.length⟩], ⟨[], t.length, false, []⟩) := by
  have hl := integer_longest (rest := []) (Or.inl rfl) h
  rw [List.append_nil] at hl
  have hlex : Lexemes t [(.integer, t)] [] := by
    have := Lexemes.step hl (by rw [List.drop_length]; exact .done noMatch_nil)
    rwa [List.take_length] at this
  rw [lex_spec L hlex]
  simp only [toks, tokenOf]
  have hskip : ¬ IsSkip .integer := by decide
  cases parseInteger t with
  | ok v => simp [steps, step1, Lex.start, endOf, hskip]
  | _ => rfl

/-- C41, a document that is one integer literal: it is read as the number it denotes when that number is
smaller than 2^63 in magnitude; otherwise the program has undefined behaviour. Missing: literals of larger
magnitude, among them -2^63, which fits the 64-bit type (negation below). -/
theorem C41_integer_literal_partial (L : Lib) (tab : SymTab) (t : List Byte) (v : Int)
    (hlit' : TokenText .integer t) (hv : IntText t v) (fuel : Nat) :
    parse L (fuel + 2) tab t =
      if v.natAbs < 2^63 then .ok ⟨[.int (BitVec.ofInt 64 v)], [], [], tab⟩ else .ub "signed overflow" := by
  unfold parse
  rw [lex_integer L (integer_iff.mpr hlit'), parseInteger_spec hv]
  split <;> rfl

/-- C41, in any document: an integer token carries the number its text denotes. -/
theorem C41_every_integer_token_partial (L : Lib) (s : List Byte) (ts : List Token) (l : Lex)
    (h : lex L s = .ok (ts, l)) (tok : Token) (hm : tok ∈ ts) (x : U64) (hk : tok.kind = .integer x) :
    ∃ v, TokenText .integer tok.text ∧ IntText tok.text v ∧ v.natAbs < 2^63 ∧ x = BitVec.ofInt 64 v ∧ x.toInt = v := by
  obtain ⟨ls, rest, hlex⟩ := lexemes_exists s
  rw [lex_spec L hlex] at h
  obtain ⟨ts', ht, he⟩ := Outcome.bind_eq_ok.mp h
  injection he with he; injection he with he _; subst he
  obtain ⟨r, h1, h2⟩ := tokensOf_mem (toks_tokensOf ht) hm
  obtain ⟨re, h3, h4⟩ := lexemes_mem hlex _ h1
  rw [hk] at h2
  cases r <;> simp [tokenOf] at h2
  case real =>
    obtain ⟨v, hv, hx⟩ := Outcome.bind_eq_ok.mp h2
    injection hx with hx; injection hx with hx; cases hx
  obtain ⟨v, hv, hx⟩ := Outcome.bind_eq_ok.mp h2
  injection hx with hx; injection hx with hx; injection hx with hx; subst hx
  have hre : re = integerRe := integer_rule h3
  subst hre
  obtain ⟨w, hw⟩ := integer_text h4
  rw [parseInteger_spec hw] at hv
  split at hv
  · rename_i hlt
    injection hv with hv
    refine ⟨w, integer_iff.mp h4, hw, hlt, hv.symm, ?_⟩
    rw [← hv, BitVec.toInt_ofInt]
    rw [Int.bmod_def]
    omega
  · cases hv

/-- C41 fails: the literal of the least 64-bit integer is undefined behaviour. -/
theorem C41_negation (L : Lib) (tab : SymTab) :
    IntText [45, 57, 50, 50, 51, 51, 55, 50, 48, 51, 54, 56, 53, 52, 55, 55, 53, 56, 48, 56] (-2^63) ∧
    ∀ fuel, parse L (fuel + 2) tab
      [45, 57, 50, 50, 51, 51, 55, 50, 48, 51, 54, 56, 53, 52, 55, 55, 53, 56, 48, 56] =
      .ub "signed overflow" := by
  have h : IntText [45, 57, 50, 50, 51, 51, 55, 50, 48, 51, 54, 56, 53, 52, 55, 55, 53, 56, 48, 56] (-2^63) :=
    .minus (ds := [57, 50, 50, 51, 51, 55, 50, 48, 51, 54, 56, 53, 52, 55, 55, 53, 56, 48, 56])
      (by simp) (by decide)
  refine ⟨h, fun fuel => ?_⟩
  rw [C41_integer_literal_partial L tab _ _ ?_ h fuel]
  · rfl
  · apply integer_iff.mp
    have := nullable_iff.mp (show nullable (derivs
      [45, 57, 50, 50, 51, 51, 55, 50, 48, 51, 54, 56, 53, 52, 55, 55, 53, 56, 48, 56] integerRe) = true from rfl)
    simpa using derivs_iff.mp this

/-- `-42`. -/
example : parse demo 5 .empty [45, 52, 50] = .ok ⟨[.int (-42)], [], [], .empty⟩ := by
  refine (C41_integer_literal_partial demo .empty _ (-42) ?_ (.minus (ds := [52, 50]) (by simp) (by decide)) 3).trans rfl
  have := nullable_iff.mp (show nullable (derivs [45, 52, 50] integerRe) = true from rfl)
  exact integer_iff.mp (by simpa using derivs_iff.mp this)

/-! ### C42 -/

/-- C42 fails: whatever follows `1 @`, nothing of it is read and no error is logged. -/
theorem C42_negation (L : Lib) (tab : SymTab) (v : List Byte) (fuel : Nat) :
    NoToken (64#8 :: v) ∧
    parse L (fuel + 2) tab ([49, 32, 64] ++ v) = .ok ⟨[.int 1], [], [], tab⟩ := by
  have h3 : NoMatch rules (64#8 :: v) := by
    have := (scan_spec rules (64#8 :: v)).1
    rw [show (scan rules (64#8 :: v)).best = none from rfl] at this
    exact this
  have h1 : Longest rules ([49] ++ (32#8 :: 64#8 :: v)) .integer 1 :=
    integer_longest (t := [49]) (Or.inr ⟨_, rfl⟩) (.seq (s := []) (.altL .eps) (.altR
      (.seq (s := [49]) (t := []) (.cls rfl) .starNil)))
  have h2 : Longest rules (32#8 :: 64#8 :: v) .whitespace 1 := longest_space (Or.inr ⟨64#8, v, rfl, rfl⟩)
  have hlex : Lexemes ([49, 32, 64] ++ v) [(.integer, [49]), (.whitespace, [32])] (64#8 :: v) :=
    .step h1 (.step h2 (.done h3))
  refine ⟨noMatch_iff.mp h3, ?_⟩
  unfold parse
  rw [lex_spec L hlex]
  have hbr : (endOf (steps (Lex.start ([49, 32, 64] ++ v)) [(.integer, [49]), (.whitespace, [32])])).breaks = [] := by
    rw [endOf_breaks]; rfl
  have ht : toks L 0 [(.integer, [49]), (.whitespace, [32])] = .ok [⟨.integer 1, [49], 0, 1⟩] := rfl
  rw [ht]
  simp only [Outcome.ok_bind, hbr]
  rfl

/-- C42, what is proved instead: the document of a text is that of its valid beginning – the part that
divides into lexemes – in nodes, symbols and messages logged (or its outcome, when parsing does not
return); so an error is logged exactly when that part alone gives one. The rest, at which no rule
matches, plays no part. Missing: the rest should be reported, and it never is. -/
theorem C42_the_rest_plays_no_part_partial (L : Lib) (s : List Byte) :
    ∃ good rest, s = good ++ rest ∧ NoToken rest ∧ (∃ ls, Chunks good ls []) ∧
      ∀ (fuel : Nat) (tab : SymTab),
        (∀ d, parse L fuel tab s = .ok d → ∃ d', parse L fuel tab good = .ok d' ∧ d'.nodes = d.nodes ∧
          d'.tab = d.tab ∧ d'.errors.map (·.msg) = d.errors.map (·.msg)) ∧
        ((parse L fuel tab s).isOk = (parse L fuel tab good).isOk) := by
  obtain ⟨ls, rest, h⟩ := lexemes_exists s
  obtain ⟨h1, h2, h3⟩ := lexemes_text h
  have hc := lexemes_cut h
  refine ⟨_, rest, h1, noMatch_iff.mp h3, ⟨ls, lexemes_iff.mp hc⟩, ?_⟩
  intro fuel tab
  unfold parse
  rw [lex_spec L h, lex_spec L hc]
  cases toks L 0 ls with
  | ok ts =>
    simp only [Outcome.ok_bind]
    have hsim := sim_top L fuel ⟨ts, (endOf (steps (Lex.start s) ls)).pos, tab, []⟩
      ⟨ts, (endOf (steps (Lex.start (ls.map (·.2)).flatten) ls)).pos, tab, []⟩ [] ⟨rfl, rfl, rfl⟩
    rcases hsim with ⟨s, s', x, ha, hb, hs⟩ | ⟨w, ha, hb⟩ | ⟨w, ha, hb⟩ | ⟨w, ha, hb⟩ | ⟨ha, hb⟩ <;>
      rw [ha, hb]
    · refine ⟨?_, rfl⟩
      intro d hd
      injection hd with hd; subst hd
      exact ⟨_, rfl, rfl, hs.tab, hs.log⟩
    all_goals exact ⟨fun d hd => (by cases hd), rfl⟩
  | _ => exact ⟨fun d hd => (by cases hd), rfl⟩

/-- A lone minus sign in a list swallows the rest of the document, the closing parenthesis included:
`(- 1) 2` is read as an unclosed empty list. -/
example : parse demo 20 .empty [40, 45, 32, 49, 41, 32, 50] =
    .ok ⟨[.list []], [⟨2, 2, "Unexpected end of file while parsing list"⟩], [], .empty⟩ := by rfl

/-! ### C51 -/

/-- `o` is on line `line`, at column `col`, of the text `s`: so many newlines before it, and so many bytes
since the last of them (or the beginning). -/
structure _root_.Ab.Spec.AtLine (s : List Byte) (o line col : Nat) : Prop where
  lines : line = (s.take o).count 10#8
  start : ∃ st, o = st + col ∧ (st = 0 ∨ s[st - 1]? = some 10#8) ∧ ∀ (i : Nat), st ≤ i → i < o → s[i]? ≠ some 10#8

theorem countP_newlines : ∀ (s : List Byte) (pos o : Nat), pos ≤ o →
    (newlines pos s).countP (· ≤ o) = (s.take (o - pos)).count 10#8
  | [], pos, o, _ => by simp [newlines]
  | b :: bs, pos, o, h => by
    simp only [newlines]
    rcases Nat.lt_or_ge pos o with hlt | hge
    · have ih := countP_newlines bs (pos + 1) o (by omega)
      obtain ⟨d, hd⟩ : ∃ d, o - pos = d + 1 := ⟨o - pos - 1, by omega⟩
      have hd' : o - (pos + 1) = d := by omega
      rw [hd, List.take_succ_cons, List.count_cons]
      rw [hd'] at ih
      split
      · rename_i hb
        rw [List.countP_cons, ih]
        have : decide (pos + 1 ≤ o) = true := by simp; omega
        simp [hb, this]
      · rename_i hb
        rw [ih]; simp [hb]
    · have he : o - pos = 0 := by omega
      rw [he, List.take_zero]
      have : ∀ p ∈ newlines pos (b :: bs), ¬ (decide (p ≤ o) = true) := by
        intro p hp
        obtain ⟨i, -, hi⟩ := mem_newlines.mp hp
        simp; omega
      have h0 := List.countP_eq_zero.mpr this
      simpa [newlines] using h0

/-- C51 when no string token contains a newline: every token's line and column, looked up in the line
information the lexer recorded, are its true line and column in the text. Missing: newlines inside string
literals are not recorded (negation below). -/
theorem C51_token_locations_partial (L : Lib) (s : List Byte) (ts : List Token) (l : Lex)
    (h : lex L s = .ok (ts, l)) (hs : ∀ t ∈ ts, t.kind = .string → 10#8 ∉ t.text) (hlen : s.length + 1 < 2^64)
    (t : Token) (ht : t ∈ ts) :
    ∃ line col, LI.location (LI.breaks l.breaks) t.lo = .ok (line, col) ∧
      LI.line (LI.breaks l.breaks) t.lo = .ok line ∧ LI.column (LI.breaks l.breaks) t.lo = .ok col ∧
      AtLine s t.lo line col := by
  obtain ⟨ls, rest, hlex⟩ := lexemes_exists s
  obtain ⟨h1, h2, h3⟩ := lexemes_text hlex
  rw [lex_spec L hlex] at h
  obtain ⟨ts', htk, he⟩ := Outcome.bind_eq_ok.mp h
  injection he with he; injection he with he hl; subst he
  have hto := toks_tokensOf htk
  obtain ⟨-, h5, h6, h7⟩ := tokensOf_slice (pre := []) rest hto ht
  have hstr : ∀ x ∈ ls, x.1 = Rule.string → 10#8 ∉ x.2 := by
    have key : ∀ (ls : List (Rule × List Byte)) (pos : Nat) (ts : List Token), TokensOf L pos ls ts →
        ∀ x ∈ ls, x.1 = Rule.string → ∃ t ∈ ts, t.kind = .string ∧ t.text = x.2 := by
      intro ls
      induction ls with
      | nil => intro _ _ _ x hx; cases hx
      | cons y ls ih =>
        intro pos ts hto x hx hr
        obtain ⟨r, tx⟩ := y
        unfold TokensOf at hto
        split at hto
        · rename_i hsk
          rcases List.mem_cons.mp hx with hx | hx
          · subst hx; simp only at hr; subst hr; exact absurd hsk (by decide)
          · exact ih _ _ hto x hx hr
        · obtain ⟨k, ts', rfl, hk, hto⟩ := hto
          rcases List.mem_cons.mp hx with hx | hx
          · subst hx; simp only at hr; subst hr
            refine ⟨_, List.mem_cons_self, ?_, rfl⟩
            simp [tokenOf] at hk; exact hk.symm
          · obtain ⟨t, h1, h2⟩ := ih _ _ hto x hx hr
            exact ⟨t, List.mem_cons_of_mem _ h1, h2⟩
    intro x hx hr
    obtain ⟨t, h1, h2, h3⟩ := key ls 0 _ hto x hx hr
    rw [← h3]; exact hs t h1 h2
  have hbr : l.breaks = newlines 0 (ls.map (·.2)).flatten := by
    rw [← hl, endOf_breaks]
    have := (steps_breaks ls (Lex.start s) (lexemes_mem hlex) hstr).1
    simpa [Lex.start] using this
  have hsorted : l.breaks.Pairwise (· < ·) := by rw [hbr]; exact newlines_sorted _ _
  have hsorted' : l.breaks.Pairwise (· ≤ ·) := hsorted.imp (fun h => Nat.le_of_lt h)
  have hgl : ((ls.map (·.2)).flatten).length ≤ s.length := by
    have := congrArg List.length h1; simp at this ⊢; omega
  have hb : ∀ b ∈ l.breaks, b < 2^64 := by
    intro b hb
    rw [hbr] at hb
    obtain ⟨i, hi, hbi⟩ := mem_newlines.mp hb
    have := (List.getElem?_eq_some_iff.mp hi).1
    omega
  have hn : l.breaks.length ≤ s.length := by
    rw [hbr]
    have : ∀ (x : List Byte) (p : Nat), (newlines p x).length ≤ x.length := by
      intro x
      induction x with
      | nil => intro p; simp [newlines]
      | cons b bs ih =>
        intro p
        simp only [newlines]
        split
        · simpa using ih (p + 1)
        · have := ih (p + 1); simp; omega
    exact Nat.le_trans (this _ _) hgl
  simp only [List.nil_append] at h5
  have hlo : t.lo ≤ ((ls.map (·.2)).flatten).length := by omega
  obtain ⟨e1, e2, e3, e4⟩ := LI.C35_line_and_column l.breaks t.lo hsorted' hb (by omega) (by omega)
  refine ⟨_, _, e3, e1, e2, ⟨?_, lineStart l.breaks (lineOf l.breaks t.lo), by omega, ?_, ?_⟩⟩
  · unfold lineOf
    rw [hbr, countP_newlines _ 0 _ (Nat.zero_le _)]
    conv => rhs; rw [h1]
    rw [Nat.sub_zero, List.take_append_of_le_length hlo]
  · cases hk : lineOf l.breaks t.lo with
    | zero => left; rfl
    | succ k =>
      right
      have hklt : k < l.breaks.length := by
        have := List.countP_le_length (p := (· ≤ t.lo)) (l := l.breaks)
        unfold lineOf at hk; omega
      have hst : lineStart l.breaks (k + 1) = l.breaks[k] := by
        unfold lineStart
        rw [List.getD_eq_getElem?_getD]; simp [hklt]
      rw [hst]
      have hmem : l.breaks[k] ∈ newlines 0 (ls.map (·.2)).flatten := by
        rw [← hbr]; exact List.getElem_mem hklt
      obtain ⟨i, hi, hp⟩ := mem_newlines.mp hmem
      rw [hp]
      have hlt := (List.getElem?_eq_some_iff.mp hi).1
      rw [h1, List.getElem?_append_left (by omega)]
      simpa using hi
  · intro i hsti hio hnl
    have hi' : ((ls.map (·.2)).flatten)[i]? = some 10#8 := by
      rw [h1, List.getElem?_append_left (by omega)] at hnl; exact hnl
    have hmem : i + 1 ∈ l.breaks := by
      rw [hbr]; exact mem_newlines.mpr ⟨i, hi', by omega⟩
    -- every break at or before the token is at or before the start of its line
    have hmax : ∀ b ∈ l.breaks, b ≤ t.lo → b ≤ lineStart l.breaks (lineOf l.breaks t.lo) := by
      intro b hb hbo
      obtain ⟨j, hj, rfl⟩ := List.getElem_of_mem hb
      have hjlt : j < lineOf l.breaks t.lo := by
        unfold lineOf
        have : (l.breaks.take (j + 1)).countP (· ≤ t.lo) ≤ l.breaks.countP (· ≤ t.lo) :=
          (List.take_sublist _ _).countP_le
        have hall : (l.breaks.take (j + 1)).countP (· ≤ t.lo) = (l.breaks.take (j + 1)).length := by
          rw [List.countP_eq_length]
          intro a ha
          obtain ⟨m, hm, rfl⟩ := List.getElem_of_mem ha
          rw [List.length_take] at hm
          rw [List.getElem_take]
          rcases Nat.lt_or_ge m j with hmj | hmj
          · have := List.pairwise_iff_getElem.mp hsorted m j (by omega) hj hmj
            simp; omega
          · have : m = j := by omega
            subst this; simpa using hbo
        rw [hall, List.length_take] at this
        omega
      have hllt : lineOf l.breaks t.lo ≤ l.breaks.length := List.countP_le_length
      obtain ⟨k, hk⟩ : ∃ k, lineOf l.breaks t.lo = k + 1 := ⟨lineOf l.breaks t.lo - 1, by omega⟩
      have hst : lineStart l.breaks (k + 1) = l.breaks[k]'(by omega) := by
        unfold lineStart
        rw [List.getD_eq_getElem?_getD]; simp [show k < l.breaks.length from by omega]
      rw [hk, hst]
      rcases Nat.lt_or_ge j k with hjk | hjk
      · exact Nat.le_of_lt (List.pairwise_iff_getElem.mp hsorted j k hj (by omega) hjk)
      · have : j = k := by omega
        subst this; exact Nat.le_refl _
    have := hmax _ hmem (by omega)
    omega

/-- C51 fails: in `"⏎" a` the symbol is on line 1, and the line information says line 0. -/
theorem C51_negation (L : Lib) : ∃ ts l t, lex L [34, 10, 34, 32, 97] = .ok (ts, l) ∧ t ∈ ts ∧ t.text = [97] ∧
    LI.location (LI.breaks l.breaks) t.lo = .ok (0, 4) ∧ AtLine [34, 10, 34, 32, 97] t.lo 1 2 := by
  refine ⟨[⟨.string, [34, 10, 34], 0, 3⟩, ⟨.symbol, [97], 4, 5⟩], ⟨[], 5, false, []⟩, ⟨.symbol, [97], 4, 5⟩,
    rfl, by simp, rfl, rfl, ⟨rfl, 2, rfl, Or.inr rfl, ?_⟩⟩
  intro i h1 h2
  have h2 : i < 4 := h2
  have : i = 2 ∨ i = 3 := by omega
  rcases this with h | h <;> subst h <;> decide

/-- `a⏎b`: the second symbol is found on line 1, column 0. -/
example : ∃ ts l, lex demo [97, 10, 98] = .ok (ts, l) ∧ (∀ t ∈ ts, t.kind = .string → 10#8 ∉ t.text) ∧
    ∃ t ∈ ts, LI.location (LI.breaks l.breaks) t.lo = .ok (1, 0) :=
  ⟨[⟨.symbol, [97], 0, 1⟩, ⟨.symbol, [98], 2, 3⟩], ⟨[], 3, false, [2]⟩, rfl, by decide,
    ⟨.symbol, [98], 2, 3⟩, by simp, rfl⟩

/-! ### C52 -/

theorem rule_starts_quote {q : Rule × Re} (hq : q ∈ rules) : q = (.string, stringRe) ∨ first q.2 34#8 = false := by
  simp only [rules, List.mem_cons, List.not_mem_nil, or_false] at hq
  rcases hq with h | h | h | h | h | h | h | h | h | h | h | h | h | h | h | h <;> subst h
  all_goals first | (right; rfl) | (left; rfl)

/-- C52, what is proved: a document that is one string literal without inner quotes is read as one string
node with no error, but the node's value is the literal as written, with its quotes and with its escape
sequences not replaced. Missing: the value should be the contents (negation below). -/
theorem C52_string_literal_partial (L : Lib) (tab : SymTab) (body : List Byte)
    (hb : ∀ c ∈ body, c ≠ 34#8 ∧ c ≠ 39#8) (fuel : Nat) :
    parse L (fuel + 2) tab (34#8 :: body ++ [34#8]) = .ok ⟨[.str (34#8 :: body ++ [34#8])], [], [], tab⟩ := by
  have hlang : Lang stringRe (34#8 :: body ++ [34#8]) := by
    have hstar : ∀ (b : List Byte), (∀ c ∈ b, c ≠ 34#8 ∧ c ≠ 39#8) →
        Lang (.star (.alt (.cls (fun b => !(b == 34#8 || b == 39#8))) (.seq (ch 92) (.cls (fun b => b == 116#8 || b == 110#8 || b == 114#8 || b == 92#8 || b == 34#8 || b == 39#8))))) b := by
      intro b
      induction b with
      | nil => intro _; exact .starNil
      | cons c b ih =>
        intro h
        obtain ⟨h1, h2⟩ := h c (by simp)
        exact .starCons (s := [c]) (.altL (.cls (by simp [h1, h2]))) (ih (fun d hd => h d (by simp [hd])))
    exact .seq (s := [34#8]) (lang_ch.mpr rfl) (.seq (s := body) (hstar body hb) (lang_ch.mpr rfl))
  have hlong : Longest rules (34#8 :: body ++ [34#8]) .string (34#8 :: body ++ [34#8]).length := by
    refine ⟨by simp, Nat.le_refl _, ⟨13, stringRe, rfl, by rw [List.take_length]; exact hlang, ?_⟩, ?_⟩
    · intro j q hj hq hl
      rw [List.take_length] at hl
      rcases rule_starts_quote (List.mem_of_getElem? hq) with h | h
      · subst h
        have hh : ∀ (j : Nat), j < 13 → (rules.map (·.1))[j]? ≠ some Rule.string := by decide
        exact hh j hj (by simp [hq])
      · rw [lang_first hl 34#8 _ rfl] at h; cases h
    · intro m q h1 h2; omega
  have hlex : Lexemes (34#8 :: body ++ [34#8]) [(.string, 34#8 :: body ++ [34#8])] [] := by
    have := Lexemes.step hlong (by rw [List.drop_length]; exact .done noMatch_nil)
    rwa [List.take_length] at this
  unfold parse
  rw [lex_spec L hlex]
  have hbr : (endOf (steps (Lex.start (34#8 :: body ++ [34#8])) [(.string, 34#8 :: body ++ [34#8])])).breaks = [] := by
    rw [endOf_breaks]; rfl
  have ht : toks L 0 [(.string, 34#8 :: body ++ [34#8])] =
      .ok [⟨.string, 34#8 :: body ++ [34#8], 0, 0 + (34#8 :: body ++ [34#8]).length⟩] := rfl
  rw [ht]
  simp only [Outcome.ok_bind, hbr]
  rfl

/-- C52 fails for every literal: the value is never the text between the quotes. -/
theorem C52_negation (L : Lib) (tab : SymTab) (body : List Byte) (hb : ∀ c ∈ body, c ≠ 34#8 ∧ c ≠ 39#8) (fuel : Nat)
    (d : Doc) (h : parse L (fuel + 2) tab (34#8 :: body ++ [34#8]) = .ok d) :
    ∃ v, d.nodes = [.str v] ∧ v ≠ body := by
  rw [C52_string_literal_partial L tab body hb] at h
  injection h with h; subst h
  refine ⟨_, rfl, fun hh => ?_⟩
  have := congrArg List.length hh
  simp at this
  omega

/-- `"a\n"` is read as the five characters written. -/
example : parse demo 5 .empty [34, 97, 92, 110, 34] = .ok ⟨[.str [34, 97, 92, 110, 34]], [], [], .empty⟩ :=
  C52_string_literal_partial demo .empty [97, 92, 110] (by decide) 3

end Ab.Edn
