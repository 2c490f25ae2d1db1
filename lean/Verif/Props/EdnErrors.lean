import Verif.Proof.EdnErrors
import Verif.Props.EdnForm
/-! C93: mistakes in an EDN text are reported where they are. -/
namespace Ab.Edn

open Spec Spec.EdnErrors Re

theorem steps_at : ∀ (ls : List (Rule × List Byte)) (l : Lex), (steps l ls).pos = l.pos + ((ls.map (·.2)).flatten).length ∧
    (steps l ls).rest = l.rest.drop ((ls.map (·.2)).flatten).length
  | [], l => by simp [steps]
  | (r, t) :: ls, l => by
    rw [steps]
    obtain ⟨h1, h2⟩ := steps_at ls (step1 l r t)
    rw [h1, h2]
    simp [step1, Nat.add_assoc]

/-- The END token is after all others, and within the text. -/
theorem lex_end {L : Lib} {s : List Byte} {ts : List Token} {l : Lex} (h : lex L s = .ok (ts, l)) :
    (∀ t ∈ ts, t.hi ≤ l.pos) ∧ l.pos ≤ s.length := by
  obtain ⟨ls, rest, hlex⟩ := lexemes_exists s
  obtain ⟨h1, h2, h3⟩ := lexemes_text hlex
  rw [lex_spec L hlex] at h
  obtain ⟨ts', htk, he⟩ := Outcome.bind_eq_ok.mp h
  injection he with he; injection he with he hl; subst he
  obtain ⟨a, b⟩ := steps_at ls (Lex.start s)
  have a' : (steps (Lex.start s) ls).pos = ((ls.map (·.2)).flatten).length := by rw [a]; simp [Lex.start]
  have b' : (steps (Lex.start s) ls).rest = rest := by
    rw [b]
    show s.drop _ = rest
    conv => lhs; arg 2; rw [h1]
    exact List.drop_left
  have hpos : ((ls.map (·.2)).flatten).length ≤ l.pos ∧ l.pos ≤ s.length := by
    rw [← hl]
    unfold endOf
    split
    · rw [a', h1]; simp
    · simp only [a', b']
      have := (scan_spec (rules := rules) (input := rest)).2.1
      constructor
      · omega
      · rw [h1, List.length_append]; omega
  refine ⟨?_, hpos.2⟩
  intro t ht
  obtain ⟨-, h5, -, -⟩ := tokensOf_slice (pre := []) rest (toks_tokensOf htk) ht
  have h5' : t.hi ≤ ((ls.map (·.2)).flatten).length := by simpa using h5
  omega

theorem parse_log {L : Lib} {tab : SymTab} {s : List Byte} {ts : List Token} {l : Lex} (hl : lex L s = .ok (ts, l)) {fuel : Nat} {d : Doc}
    (hp : parse L fuel tab s = .ok d) :
    ∃ s', Logged ⟨ts, l.pos, tab, []⟩ s' d.errors ∧ mistakes l.pos [] ts = others d.errors := by
  unfold parse at hp
  rw [hl] at hp
  simp only [Outcome.ok_bind] at hp
  obtain ⟨⟨s', ns⟩, h1, h2⟩ := Outcome.bind_eq_ok.mp hp
  injection h2 with h2; subst h2
  obtain ⟨errs, h3, h4⟩ := top_log L _ _ _ _ _ h1
  have : s'.log = errs := by rw [h3.log]; rfl
  simp only [this]
  exact ⟨s', h3, h4⟩

/-- C93: for every text for which a document is returned, the errors, without those about keys that are in their map already, are the
mistakes found following the brackets of the text from left to right. Missing: for some texts no document is returned (C39), and see
`C93_negation`. -/
theorem C93_mistakes_partial (L : Lib) (tab : SymTab) (s : List Byte) (ts : List Token) (l : Lex) (hl : lex L s = .ok (ts, l))
    (fuel : Nat) (d : Doc) (hp : parse L fuel tab s = .ok d) :
    d.errors.filter (fun e => e.msg ≠ "duplicate key discovered in map") = mistakes l.pos [] ts :=
  (parse_log hl hp).choose_spec.2.symm

/-- C93, places: every error, about a key or not, has the place of a token or of the end of the text – or of where the lexer gave up (C42) –
and errors are reported in the order of their places. -/
theorem C93_places (L : Lib) (tab : SymTab) (s : List Byte) (ts : List Token) (l : Lex) (hl : lex L s = .ok (ts, l))
    (fuel : Nat) (d : Doc) (hp : parse L fuel tab s = .ok d) :
    (∀ e ∈ d.errors, e.lo ≤ e.hi ∧ e.hi ≤ s.length ∧
      ((∃ t ∈ ts, e.lo = t.lo ∧ e.hi = t.hi ∧ (s.drop e.lo).take (e.hi - e.lo) = t.text) ∨ (e.lo = l.pos ∧ e.hi = l.pos))) ∧
    d.errors.Pairwise (fun a b => a.lo ≤ b.lo) := by
  obtain ⟨s', h1, -⟩ := parse_log hl hp
  obtain ⟨ls, rest, -, -, -, -, -, h50⟩ := C50_tokens_are_longest_matches L s
  obtain ⟨-, hr, hs⟩ := h50 ts l hl
  obtain ⟨he1, he2⟩ := lex_end hl
  constructor
  · intro e he
    rcases h1.placed e he with ⟨t, ht, h2, h3⟩ | ⟨h2, h3⟩
    · obtain ⟨a, b, c⟩ := hr t ht
      refine ⟨by omega, by omega, Or.inl ⟨t, ht, h2, h3, ?_⟩⟩
      rw [h2, h3, b, Nat.add_sub_cancel_left]
      exact a
    · simp only at h2 h3
      exact ⟨by omega, by omega, Or.inr ⟨h2, h3⟩⟩
  · refine (h1.order ⟨?_, ?_⟩).1
    · refine hs.imp_of_mem ?_
      intro a b ha hb hab
      have := (hr a ha).2.1
      omega
    · intro t ht
      have := (hr t ht).2.1
      have := he1 t ht
      show t.lo ≤ l.pos
      omega

/-- The errors of a parse that returns a document. -/
def errorsOf : Outcome Doc → Option (List Err)
  | .ok d => some d.errors
  | _ => none

/-- C93 fails: in `{a 1 a 2} b` the complaint about the second `a` is at the closing brace; in `{]` the map is called a vector. -/
theorem C93_negation :
    errorsOf (parse demo 30 SymTab.empty [123, 97, 32, 49, 32, 97, 32, 50, 125, 32, 98]) = some [⟨8, 9, "duplicate key discovered in map"⟩] ∧
    errorsOf (parse demo 30 SymTab.empty [123, 93]) = some [⟨1, 2, "Unexpected ']' terminating vector"⟩] := by
  decide +kernel

/-- `(a [1) ] ) {x ] y 2` followed by `}`, `)`: mistakes of several kinds; `[(`: two at the end. -/
example : errorsOf (parse demo 60 SymTab.empty [40, 97, 32, 91, 49, 41, 32, 93, 32, 41, 32, 123, 120, 32, 93, 32, 121, 32, 50, 125, 41]) =
      some [⟨5, 6, "Unexpected ')' terminating vector"⟩, ⟨7, 8, "Unexpected ']' terminating list"⟩,
          ⟨9, 10, "unexepected closing delimiter."⟩, ⟨14, 15, "unexepected closing delimiter."⟩,
          ⟨16, 17, "key not followed by value in map"⟩, ⟨20, 21, "unexepected closing delimiter."⟩] ∧
    errorsOf (parse demo 30 SymTab.empty [91, 40]) =
      some [⟨2, 2, "Unexpected end of file while parsing list"⟩, ⟨2, 2, "Unexpected end of file while parsing vector"⟩] := by
  decide +kernel

end Ab.Edn
