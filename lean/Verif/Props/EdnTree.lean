import Verif.Proof.EdnTree3
import Verif.Props.EdnLexer
/-! C40: writing a tree of EDN data as text and parsing the text gives the tree back. -/
namespace Ab.Edn

open Spec Re

/-- C40, with keywords read as symbols and strings with their quotes: take any document of nil, booleans, integers, reals,
strings, symbols, keywords, lists, vectors and maps, nested to any depth, with integers and exponents below 2^63 in magnitude,
strings that do not end in a backslash, names of the grammar and distinct map keys, and any names interned before. Its
text, words separated by single spaces and strings with their quotes and backslashes escaped, parses to a document with no error logged whose nodes are the trees, in order, except that the node of a keyword is a
symbol whose name starts with the colon, that of a string has its quotes and the backslashes it was written with, and that of a real is the number its digits give in
the machine's arithmetic (C85). The symbols are read
with the table after parsing, and names interned before keep their symbols. Missing: keyword nodes and strings as meant;
strings that end in a backslash, which are not always read back (below). -/
theorem C40_round_trip_partial (L : Lib) (hL : Lawful L) (pre : List (List Byte)) (ts : List Tree)
    (hw : ∀ t ∈ ts, Writable L.arith t) (hlen : pre.length + (wordsList ts).length < 2^64) :
    ∃ d, (∀ fuel, 2 * (wordsList ts).length + 1 ≤ fuel →
        parse L fuel (SymTab.empty.internAll pre).1 (textOf ts) = .ok d) ∧
      d.errors = [] ∧ ReadsList d.tab (asRead L) ts d.nodes ∧
      ∀ i name, (SymTab.empty.internAll pre).1.string i = .ok name → d.tab.string i = .ok name := by
  obtain ⟨is, hpre, -, -⟩ := internAll_spec pre [] List.nodup_nil (by simp; omega)
  have hpre' : (SymTab.empty.internAll pre).1 = tabOf (namesAfter [] pre) := congrArg Prod.fst hpre
  have hnl := namesAfter_length [] pre
  have hwords : (kindsList L ts).map (·.2) = wordsList ts := kindsList_words (fun x _ => kinds_words x)
  have hkl : (kindsList L ts).length = (wordsList ts).length := by rw [← hwords, List.length_map]
  obtain ⟨ls, hls, htoks⟩ := lexemes_spaced (L := L) (kindsList L ts)
    (kindsList_word (fun x hx => kinds_word L x (hw x hx)))
  rw [hwords] at hls
  change Lexemes (textOf ts) ls [] at hls
  obtain ⟨toks', ht, hk⟩ := htoks 0
  have hlex : lex L (textOf ts) = .ok (toks', endOf (steps (Lex.start (textOf ts)) ls)) := by
    rw [lex_spec L hls, ht]; rfl
  have htl : toks'.length = (wordsList ts).length := by rw [← hkl, ← hk, List.length_map]
  simp only [List.length_nil, Nat.zero_add] at hnl
  have run : ∀ fuel, 2 * (wordsList ts).length + 1 ≤ fuel → ∃ names' ns,
      parseTop L fuel ⟨toks', (endOf (steps (Lex.start (textOf ts)) ls)).pos, tabOf (namesAfter [] pre), []⟩ [] =
        .ok (⟨[], (endOf (steps (Lex.start (textOf ts)) ls)).pos, tabOf names', []⟩, ns) ∧
      Ext (namesAfter [] pre) names' toks' ∧ ReadsList (tabOf names') (asRead L) ts ns := by
    intro fuel hf
    obtain ⟨n', ns, h1, h2, h3, -⟩ := top_ok ts (fun t ht => parse_ok hL t (hw t ht)) toks'
      (endOf (steps (Lex.start (textOf ts)) ls)).pos (namesAfter [] pre) fuel [] hk
      (namesAfter_nodup List.nodup_nil pre) (by omega) (by omega)
    exact ⟨n', ns, by simpa using h1, h2, h3⟩
  obtain ⟨n', ns, h1, h2, h3⟩ := run _ (Nat.le_refl _)
  have hp : parse L (2 * (wordsList ts).length + 1) (SymTab.empty.internAll pre).1 (textOf ts) =
      .ok ⟨ns, [], (endOf (steps (Lex.start (textOf ts)) ls)).breaks, tabOf n'⟩ := by
    unfold parse
    rw [hlex, hpre']
    simp only [Outcome.ok_bind, h1]; rfl
  refine ⟨_, fun fuel hf => parse_mono hp hf, rfl, h3, ?_⟩
  intro i name hi
  rw [hpre'] at hi
  obtain ⟨m, hm⟩ := h2.ext
  have := h2.len
  rw [hm]
  exact string_mono (by rw [← hm]; omega) i name hi

theorem symbol_lang {n : List Byte} (h : nullable (derivs n symbolRe) = true) : SymbolText n := by
  have := derivs_iff.mp (nullable_iff.mp h)
  rw [List.append_nil] at this
  exact symbol_iff.mp this

/-- C40 fails: the keyword `:a` comes back as a symbol node. -/
theorem C40_negation (L : Lib) (hL : Lawful L) :
    Writable L.arith (.kw [97]) ∧ textOf [.kw [97]] = [58, 97] ∧
    ∃ d, (∀ fuel, 3 ≤ fuel → parse L fuel SymTab.empty [58, 97] = .ok d) ∧ (∃ i, d.nodes = [.sym i]) ∧
      ¬ ReadsList d.tab asMeant [.kw [97]] d.nodes := by
  have hw : Writable L.arith (.kw [97]) := .kw (symbol_lang rfl)
  have ht : textOf [.kw [97]] = [58, 97] := by simp [textOf, wordsList, words, spaced]
  refine ⟨hw, ht, ?_⟩
  obtain ⟨d, h1, -, h2, -⟩ := C40_round_trip_partial L hL [] [.kw [97]] (by simpa using hw)
    (by simp [wordsList, words])
  rw [ht] at h1
  have hn : ∃ i, d.nodes = [.sym i] := by
    generalize d.nodes = ns at h2
    cases h2 with | cons h h' =>
    cases h' with | nil =>
    cases h with | kw _ => exact ⟨_, rfl⟩
  refine ⟨d, fun fuel hf => h1 fuel (by simpa [wordsList, words] using hf), hn, ?_⟩
  obtain ⟨i, hi⟩ := hn
  rw [hi]
  intro h
  cases h with | cons h _ => cases h

/-- C40 fails: the string `"a"` comes back as a string of three characters. -/
theorem C40_negation_strings (L : Lib) (hL : Lawful L) :
    Writable L.arith (.str [97]) ∧ textOf [.str [97]] = [34, 97, 34] ∧
    ∃ d, (∀ fuel, 3 ≤ fuel → parse L fuel SymTab.empty [34, 97, 34] = .ok d) ∧ d.nodes = [.str [34, 97, 34]] ∧
      ¬ ReadsList d.tab asMeant [.str [97]] d.nodes := by
  have hw : Writable L.arith (.str [97]) := .str (fun u h => by
    have := congrArg List.getLast? h
    rw [show ascii "\\" = [92#8] from rfl, List.getLast?_concat] at this
    exact absurd this (by decide))
  have ht : textOf [.str [97]] = [34, 97, 34] := by
    have e : quotedText [97] = [34, 97, 34] := rfl
    simp only [textOf, wordsList, words, spaced, List.append_nil]; exact e
  refine ⟨hw, ht, ?_⟩
  obtain ⟨d, h1, -, h2, -⟩ := C40_round_trip_partial L hL [] [.str [97]] (by simpa using hw)
    (by simp [wordsList, words])
  rw [ht] at h1
  have hn : d.nodes = [.str [34, 97, 34]] := by
    generalize d.nodes = ns at h2
    cases h2 with | cons h h' =>
    cases h' with | nil =>
    cases h with | str _ => rfl
  refine ⟨d, fun fuel hf => h1 fuel (by simpa [wordsList, words] using hf), hn, ?_⟩
  rw [hn]
  have key : ∀ n, ReadsList d.tab asMeant [.str [97]] [n] → n = .str [97] := by
    intro n h
    cases h with | cons h _ => cases h with | str _ => rfl
  intro h
  have := key _ h
  injection this with this
  exact absurd this (by decide)

/-- C40 fails for strings that end in a backslash, quotes or no quotes: the strings `\` and `b`, written `"\\\\" "b"`,
come back, without an error, as the string `"\\\\" "` and the symbol `b`. -/
theorem C40_negation_backslash : textOf [.str [92], .str [98]] = [34, 92, 92, 34, 32, 34, 98, 34] ∧
    ∀ (L : Lib), ∃ d, (∀ fuel, 5 ≤ fuel → parse L fuel SymTab.empty [34, 92, 92, 34, 32, 34, 98, 34] = .ok d) ∧ d.errors = [] ∧
      d.nodes = [.str [34, 92, 92, 34, 32, 34], .sym 0] ∧ d.tab.string 0 = .ok [98] ∧
      ¬ ReadsList d.tab (asRead L) [.str [92], .str [98]] d.nodes ∧ ¬ ReadsList d.tab asMeant [.str [92], .str [98]] d.nodes := by
  refine ⟨?_, fun L => ?_⟩
  · have e : quotedText [92] = [34, 92, 92, 34] := rfl
    have e' : quotedText [98] = [34, 98, 34] := rfl
    simp only [textOf, wordsList, words, spaced, List.append_nil, List.cons_append, List.nil_append, e, e']; rfl
  have get : ∀ (s : List Byte) r n, (scan rules s).best = some (r, n) → Longest rules s r n := by
    intro s r n e
    have := (scan_spec rules s).1
    rwa [e] at this
  have c : Lexemes [34, 92, 92, 34, 32, 34, 98, 34] [(.string, [34, 92, 92, 34, 32, 34]), (.symbol, [98])] [34] := by
    refine .step (n := 6) (get _ _ _ (by decide +kernel)) (.step (n := 1) (get [98, 34] _ _ (by decide +kernel)) (.done ?_))
    have := (scan_spec rules [34]).1
    have e : (scan rules [34]).best = none := by decide +kernel
    rwa [e] at this
  have hp : parse L 5 SymTab.empty [34, 92, 92, 34, 32, 34, 98, 34] =
      .ok ⟨[.str [34, 92, 92, 34, 32, 34], .sym 0], [], [], (SymTab.empty.intern [98]).1⟩ := by
    unfold parse; rw [lex_spec L c]; rfl
  refine ⟨_, fun fuel hf => parse_mono hp hf, rfl, rfl, by decide +kernel, ?_, ?_⟩
  · intro h
    cases h with | cons h h' =>
    cases h' with | cons h _ =>
    cases h
  · intro h
    cases h with | cons h h' =>
    cases h' with | cons h _ =>
    cases h

/-- `[true (foo :k {1 x (1) nil} -42) {} -1.5e3] y "f\""`: a document the theorem is about. -/
example : ∀ t ∈ ([.vec [.bool true, .list [.sym [102, 111, 111], .kw [107],
      .map [(.int 1, .sym [120]), (.list [.int 1], .nil)], .int (-42)], .map [], .real [45, 49, 46, 53, 101, 51]], .sym [121], .str [102, 34]] : List Tree), Writable demo.arith t := by
  have foo : Writable demo.arith (.sym [102, 111, 111]) := .sym ⟨symbol_lang rfl, by decide, by decide, by decide⟩
  have x : Writable demo.arith (.sym [120]) := .sym ⟨symbol_lang rfl, by decide, by decide, by decide⟩
  have y : Writable demo.arith (.sym [121]) := .sym ⟨symbol_lang rfl, by decide, by decide, by decide⟩
  have k : Writable demo.arith (.kw [107]) := .kw (symbol_lang rfl)
  have r15 : RealText [45, 49, 46, 53, 101, 51] true [49#8] [53#8] 3 :=
    ⟨[45#8], [46#8, 53#8], [101#8, 51#8], rfl, Or.inr (Or.inr rfl), by decide, ⟨by decide, by unfold Digit oneOf; decide⟩,
      Or.inr ⟨rfl, ⟨by decide, by unfold Digit oneOf; decide⟩⟩, Or.inr ⟨101#8, [51#8], rfl, by unfold oneOf; decide,
      IntText.plain (ds := [51#8]) (by decide) (by decide)⟩, by decide⟩
  have i1 : Writable demo.arith (.int 1) := .int (by decide)
  have m42 : Writable demo.arith (.int (-42)) := .int (by decide)
  have l1 : Writable demo.arith (.list [.int 1]) := .list (by simpa using i1)
  have m : Writable demo.arith (.map [(.int 1, .sym [120]), (.list [.int 1], .nil)]) := by
    refine .map ?_ ?_ ?_
    · simp [i1, l1]
    · simp; exact ⟨x, .nil⟩
    · simp; intro h; cases h
  simp only [List.mem_cons, List.not_mem_nil, or_false, forall_eq_or_imp, forall_eq]
  refine ⟨.vec ?_, y, .str (fun u h => by
    have := congrArg List.getLast? h
    rw [show ascii "\\" = [92#8] from rfl, List.getLast?_concat] at this
    exact absurd this (by decide))⟩
  simp only [List.mem_cons, List.not_mem_nil, or_false, forall_eq_or_imp, forall_eq]
  refine ⟨.bool _, .list ?_, .map (by simp) (by simp) .nil, .real r15 (by decide)⟩
  simp only [List.mem_cons, List.not_mem_nil, or_false, forall_eq_or_imp, forall_eq]
  exact ⟨foo, k, m, m42⟩

/-- The text of `[a {1 :k}]` and what it parses to. -/
example : textOf [.vec [.sym [97], .map [(.int 1, .kw [107])]]] =
      [91, 32, 97, 32, 123, 32, 49, 32, 58, 107, 32, 125, 32, 93] ∧
    (match parse demo 20 SymTab.empty [91, 32, 97, 32, 123, 32, 49, 32, 58, 107, 32, 125, 32, 93] with
      | .ok ⟨[.vec [.sym i, .map [(.int v, .sym j)]]], [], _, _⟩ => i == 0#64 && v == 1#64 && j == 1#64
      | _ => false) = true := by
  refine ⟨by simp [textOf, wordsList, words, wordsEntries, wordsEntry, spaced, decimal, decimalNat], ?_⟩
  decide +kernel

end Ab.Edn
