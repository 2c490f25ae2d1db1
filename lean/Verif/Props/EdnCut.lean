import Verif.Proof.EdnCut
import Verif.Props.EdnConcat
import Verif.Props.EdnForm
/-! C128: EDN texts that lost their end. -/
namespace Ab.Edn.Layout

open Spec Re

theorem parse_parts {L : Lib} {f : Nat} {tab : SymTab} {s : List Byte} {d : Doc} (h : parse L f tab s = .ok d) :
    ∃ ts l s', lex L s = .ok (ts, l) ∧ parseTop L f ⟨ts, l.pos, tab, []⟩ [] = .ok (s', d.nodes) ∧ d.errors = s'.log := by
  unfold parse at h
  obtain ⟨⟨ts, l⟩, h1, h⟩ := Outcome.bind_eq_ok.mp h
  obtain ⟨⟨s', ns⟩, h2, h⟩ := Outcome.bind_eq_ok.mp h
  injection h with h
  subst h
  exact ⟨ts, l, s', h1, h2, rfl⟩

/-- C128, for a text without escaped double quotes in its strings: when its
beginning is read without errors, the nodes read from the beginning are some of the first nodes of the whole text, followed, if the text was cut
inside a token, by atoms only (what is left of that token). So every list, vector and map read from the beginning is one of the whole text,
with all its contents. -/
theorem C128_nodes_partial (L : Lib) (hL : Lawful L) (tab : SymTab) (kept lost : List Byte) (ls : List (Rule × List Byte)) (rest : List Byte) (d d' : Doc)
    (hs : Chunks (kept ++ lost) ls rest) (hq : ∀ t, (Rule.string, t) ∈ ls → ¬ HasEscapedQuote t)
    (h1 : ReadsTo L tab kept (.ok d)) (herr : d.errors = []) (h2 : ReadsTo L tab (kept ++ lost) (.ok d')) :
    ∃ ns as, d.nodes = ns ++ as ∧ ns <+: d'.nodes ∧ (∀ n ∈ as, IsAtom n) ∧ (as ≠ [] → EndsInside ls kept) := by
  obtain ⟨-, f1, g1⟩ := h1
  obtain ⟨-, f2, g2⟩ := h2
  obtain ⟨ts, x, -, e1, -, -⟩ := parse_parts g1
  obtain ⟨ts', x', -, e1', -, -⟩ := parse_parts g2
  obtain ⟨a, us, b, rfl, rfl, hus, -, -, hin⟩ := tokens_cut hs hq e1 e1'
  generalize hF : f1 + f2 + (2 * a.length + 1) = F
  have g1 := parse_mono' g1 (by simp) (show f1 ≤ F by omega)
  have g2 := parse_mono' g2 (by simp) (show f2 ≤ F by omega)
  obtain ⟨ts, x2, s1, e2, p1, q1⟩ := parse_parts g1
  rw [e1] at e2
  injection e2 with e2; injection e2 with e2 e3; subst e2; subst e3
  obtain ⟨ts, x2, s2, e2, p2, -⟩ := parse_parts g2
  rw [e1'] at e2
  injection e2 with e2; injection e2 with e2 e3; subst e2; subst e3
  obtain ⟨errs, hlog, hd⟩ := top_form L _ _ _ _ _ p1
  rw [herr] at q1
  have he : errs = [] := by
    rw [← q1] at hlog
    exact (List.append_eq_nil_iff.mp hlog.symm).2
  obtain ⟨p, hp⟩ := hd (by rw [he]; intro e h; cases h)
  dsimp only at hp
  rw [List.map_append] at hp
  obtain ⟨p', hp'⟩ := seq_atoms hp _ _ rfl (by
    intro k hk
    obtain ⟨t, ht, rfl⟩ := List.mem_map.mp hk
    exact hus t ht)
  obtain ⟨tab', ns, er, fuel', -, -, hon, -, -⟩ := topOn hL hp' a tab F rfl (by omega)
  rw [hon] at p1 p2
  obtain ⟨as, h3, h4, h5⟩ := top_atoms L _ _ _ _ _ p1 hus
  rw [top_acc] at p2
  obtain ⟨⟨s3, r⟩, -, h6⟩ := Outcome.bind_eq_ok.mp p2
  injection h6 with h6
  injection h6 with _ h6
  refine ⟨ns, as, by simpa using h3, ⟨r, by simpa using h6⟩, h4, fun hne => hin (fun h0 => hne (h5 h0))⟩

/-- C128, for such texts: when the tokens within the beginning do not form a document, because a list, a vector or a map is still
open or a key has no value, then whatever document is read from the beginning comes with an error that is not about a key that is
there already. -/
theorem C128_open_reported_partial (L : Lib) (tab : SymTab) (kept lost : List Byte) (ls : List (Rule × List Byte)) (rest : List Byte) (ts : List Token) (l : Lex) (d : Doc)
    (hs : Chunks (kept ++ lost) ls rest) (hq : ∀ t, (Rule.string, t) ∈ ls → ¬ HasEscapedQuote t)
    (hl : lex L (kept ++ lost) = .ok (ts, l)) (ho : ¬ IsDocument (tokensIn kept.length ts)) (h1 : ReadsTo L tab kept (.ok d)) :
    ∃ e ∈ d.errors, e.msg ≠ "duplicate key discovered in map" := by
  obtain ⟨-, f, g⟩ := h1
  obtain ⟨ts1, x, s1, e1, p1, q1⟩ := parse_parts g
  obtain ⟨a, us, b, rfl, rfl, hus, ha, hb, -⟩ := tokens_cut hs hq e1 hl
  have hin : tokensIn kept.length (a ++ b) = a := by
    unfold tokensIn
    rw [List.filter_append, List.filter_eq_self.mpr (by intro t ht; simpa using ha t ht),
      List.filter_eq_nil_iff.mpr (by intro t ht; have := hb t ht; simp; omega), List.append_nil]
  rw [hin] at ho
  refine C78_ill_formed_partial L tab kept (a ++ us) x e1 (fun hw => ho ?_) f d g
  obtain ⟨p, hp⟩ := hw
  rw [List.map_append] at hp
  exact seq_atoms hp _ _ rfl (by
    intro k hk
    obtain ⟨t, ht, rfl⟩ := List.mem_map.mp hk
    exact hus t ht)

/-- C128 fails: with an escaped quote in a string, what is left can be read without errors as something else. The text `["\"]"]`
is a vector with the string `"\"]"`; its beginning `["\"]` is read, without errors, as a vector with the string `"\"`. -/
theorem C128_negation_escaped_quote :
    ∃ (kept lost : List Byte) (ls : List (Rule × List Byte)), Chunks (kept ++ lost) ls [] ∧
      ∀ (L : Lib) (tab : SymTab), ∃ d d', ReadsTo L tab kept (.ok d) ∧ d.errors = [] ∧ ReadsTo L tab (kept ++ lost) (.ok d') ∧
        d'.errors = [] ∧ d.nodes = [.vec [.str [34, 92, 34]]] ∧ d'.nodes = [.vec [.str [34, 92, 34, 93, 34]]] := by
  have c1 : Lexemes [91, 34, 92, 34, 93, 34, 93] [(.lbracket, [91]), (.string, [34, 92, 34, 93, 34]), (.rbracket, [93])] [] :=
    .step (n := 1) (get_munch _ _ _ (by decide +kernel)) (.step (n := 5) (get_munch [34, 92, 34, 93, 34, 93] _ _ (by decide +kernel))
      (.step (n := 1) (get_munch [93] _ _ (by decide +kernel)) (.done no_match_nil)))
  have c2 : Lexemes [91, 34, 92, 34, 93] [(.lbracket, [91]), (.string, [34, 92, 34]), (.rbracket, [93])] [] :=
    .step (n := 1) (get_munch _ _ _ (by decide +kernel)) (.step (n := 3) (get_munch [34, 92, 34, 93] _ _ (by decide +kernel))
      (.step (n := 1) (get_munch [93] _ _ (by decide +kernel)) (.done no_match_nil)))
  refine ⟨[91, 34, 92, 34, 93], [34, 93], _, lexemes_iff.mp c1, fun L tab => ?_⟩
  refine ⟨⟨[.vec [.str [34, 92, 34]]], [], [], tab⟩, ⟨[.vec [.str [34, 92, 34, 93, 34]]], [], [], tab⟩,
    ⟨by simp, 7, ?_⟩, rfl, ⟨by simp, 7, ?_⟩, rfl, rfl, rfl⟩
  · unfold parse; rw [lex_spec L c2]; rfl
  · show parse L 7 tab [91, 34, 92, 34, 93, 34, 93] = _
    unfold parse; rw [lex_spec L c1]; rfl

/-- C128 fails: what is left of a token can be another token. The text `nil` is read as nil; its beginning `ni` as a symbol,
without errors. -/
theorem C128_negation_other_token :
    ∃ kept lost : List Byte, ∀ (L : Lib) (tab : SymTab), ∃ d d', ReadsTo L tab kept (.ok d) ∧ d.errors = [] ∧
      ReadsTo L tab (kept ++ lost) (.ok d') ∧ d'.errors = [] ∧ d'.nodes = [.nil] ∧ d.nodes = [.sym (tab.intern [110, 105]).2] :=
  ⟨[110, 105], [108], fun L tab => ⟨⟨[.sym (tab.intern [110, 105]).2], [], [], (tab.intern [110, 105]).1⟩, ⟨[.nil], [], [], tab⟩,
    ⟨by simp, 5, rfl⟩, rfl, ⟨by simp, 5, rfl⟩, rfl, rfl, rfl⟩⟩

/-- C128 fails: a map that is not closed is not reported, reading never ends. The text `{}` is read without errors; `{` is not
read at all. -/
theorem C128_negation_open_map (L : Lib) (hL : Lawful L) (tab : SymTab) : ∃ kept lost : List Byte,
    (∃ d, ReadsTo L tab (kept ++ lost) (.ok d) ∧ d.errors = [] ∧ d.nodes = [.map []]) ∧ ∀ o, ¬ ReadsTo L tab kept o := by
  refine ⟨[123], [125], ⟨⟨[.map []], [], [], tab⟩, ⟨by simp, 7, rfl⟩, rfl, rfl⟩, ?_⟩
  rintro o ⟨h, f, hf⟩
  rw [C39_negation L hL tab f] at hf
  exact h hf.symm

theorem open_vec {ks : List Kind} {n : Nat} (h : IsSeq ks n) (e : ks = [.lbracket]) : False := by
  cases h with
  | nil => cases e
  | cons hd _ =>
    cases hd with
    | atom hk => injection e with e _; subst e; exact absurd hk (by decide)
    | _ => first | (injection e with e _; cases e; done) | (have := congrArg List.length e; simp at this)

/-- The hypotheses are met by `[a]1` cut after `[a]`, and cut after `[`, where a vector is open. -/
example (tab : SymTab) : ∃ (ls : List (Rule × List Byte)) (d : Doc), Chunks ([91, 97, 93] ++ [49]) ls [] ∧
    (∀ t, (Rule.string, t) ∈ ls → ¬ HasEscapedQuote t) ∧ ReadsTo demo tab [91, 97, 93] (.ok d) ∧ d.errors = [] ∧ d.nodes.length = 1 ∧
    ∃ d', ReadsTo demo tab ([91, 97, 93] ++ [49]) (.ok d') ∧ d'.nodes.length = 2 := by
  have c : Lexemes [91, 97, 93, 49] [(.lbracket, [91]), (.symbol, [97]), (.rbracket, [93]), (.integer, [49])] [] :=
    .step (n := 1) (get_munch _ _ _ (by decide +kernel)) (.step (n := 1) (get_munch [97, 93, 49] _ _ (by decide +kernel))
      (.step (n := 1) (get_munch [93, 49] _ _ (by decide +kernel)) (.step (n := 1) (get_munch [49] _ _ (by decide +kernel)) (.done no_match_nil))))
  refine ⟨_, ⟨[.vec [.sym (tab.intern [97]).2]], [], [], (tab.intern [97]).1⟩, lexemes_iff.mp c, ?_, ⟨by simp, 7, rfl⟩, rfl, rfl,
    ⟨[.vec [.sym (tab.intern [97]).2], .int 1], [], [], (tab.intern [97]).1⟩, ⟨by simp, 7, ?_⟩, rfl⟩
  · intro t ht; simp at ht
  · show parse demo 7 tab [91, 97, 93, 49] = _
    unfold parse; rw [lex_spec demo c]; rfl
example (tab : SymTab) : ∃ (ls : List (Rule × List Byte)) (ts : List Token) (l : Lex) (d : Doc), Chunks ([91] ++ [97, 93, 49]) ls [] ∧
    (∀ t, (Rule.string, t) ∈ ls → ¬ HasEscapedQuote t) ∧ lex demo ([91] ++ [97, 93, 49]) = .ok (ts, l) ∧ ¬ IsDocument (tokensIn 1 ts) ∧
    ReadsTo demo tab [91] (.ok d) := by
  have c : Lexemes [91, 97, 93, 49] [(.lbracket, [91]), (.symbol, [97]), (.rbracket, [93]), (.integer, [49])] [] :=
    .step (n := 1) (get_munch _ _ _ (by decide +kernel)) (.step (n := 1) (get_munch [97, 93, 49] _ _ (by decide +kernel))
      (.step (n := 1) (get_munch [93, 49] _ _ (by decide +kernel)) (.step (n := 1) (get_munch [49] _ _ (by decide +kernel)) (.done no_match_nil))))
  refine ⟨_, [⟨.lbracket, [91], 0, 1⟩, ⟨.symbol, [97], 1, 2⟩, ⟨.rbracket, [93], 2, 3⟩, ⟨.integer 1, [49], 3, 4⟩],
    endOf (steps (Lex.start [91, 97, 93, 49]) [(.lbracket, [91]), (.symbol, [97]), (.rbracket, [93]), (.integer, [49])]),
    ⟨[.vec []], [⟨1, 1, seqMsg false none⟩], [], tab⟩, lexemes_iff.mp c, ?_, ?_, ?_, ⟨by simp, 7, rfl⟩⟩
  · intro t ht; simp at ht
  · show lex demo [91, 97, 93, 49] = _
    rw [lex_spec demo c]; rfl
  · rintro ⟨n, h⟩
    exact open_vec h rfl

end Ab.Edn.Layout
