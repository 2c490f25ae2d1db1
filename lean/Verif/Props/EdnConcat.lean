import Verif.Proof.EdnConcat
import Verif.Props.EdnLayout
/-! C123: reading one EDN text after another. -/
namespace Ab.Edn.Layout

open Spec Re

theorem further_map {n : Nat} {xs ys : List Err}
    (h : All2 (RE (fun lo hi lo' hi' => lo' = lo + n ∧ hi' = hi + n)) xs ys) : ys = xs.map (Further n) := by
  induction h with
  | nil => rfl
  | @cons a b as bs h _ ih =>
    obtain ⟨lo, hi, m⟩ := a
    obtain ⟨lo', hi', m'⟩ := b
    obtain ⟨h1, h2, h3⟩ := h
    dsimp only at h1 h2 h3
    subst h1; subst h2; subst h3
    rw [List.map_cons, ← ih]; rfl

theorem not_fuel {d : Doc} {n : Nat} {o o' : Outcome Doc} (h : GoesOnAs d n o o') : o ≠ .fuel ∧ o' ≠ .fuel := by
  cases o <;> cases o' <;> first | exact h.elim | exact ⟨by simp, by simp⟩

/-- C123, for a first text that is all tokens, whitespace and comments: if it ends with a line break and is read
without errors, then reading it with a second text behind it is reading the second text with the symbols of the
first: the nodes of the first come first, then those of the second, the symbols are those after both, the errors are
those of the second, moved, and the line breaks those of both; and one ends if and only if the other does, and in the same way. The second text may be malformed
in any way. Also assumed: no string of the first ends in an escaped quote, or the second contains no double quote. -/
theorem C123_one_after_the_other_partial (L : Lib) (tab : SymTab) (u s : List Byte) (ls : List (Rule × List Byte)) (d : Doc)
    (hu : Chunks (u ++ ascii "\n") ls []) (h1 : ReadsTo L tab (u ++ ascii "\n") (.ok d)) (herr : d.errors = [])
    (hq : (∀ t, (Rule.string, t) ∈ ls → ¬ EndsEscaped t) ∨ ∀ b ∈ s, noQuote b) :
    (∀ o, ReadsTo L d.tab s o → ∃ o', ReadsTo L tab (u ++ ascii "\n" ++ s) o' ∧ GoesOnAs d (u.length + 1) o o') ∧
    (∀ o', ReadsTo L tab (u ++ ascii "\n" ++ s) o' → ∃ o, ReadsTo L d.tab s o ∧ GoesOnAs d (u.length + 1) o o') := by
  have hnl : ascii "\n" = [10#8] := rfl
  obtain ⟨-, f1, hf1⟩ := h1
  obtain ⟨ls2, rest, hs⟩ := lexemes_exists s
  have hsc := lexemes_iff.mp hs
  obtain ⟨ls', g1, g2, g3, g4⟩ := chunks_more hsc hu rfl (Or.inr ⟨u, by rw [hnl]⟩) (by
    intro t ht
    rcases hq with hq | hq
    · exact Or.inl (hq t ht)
    · refine Or.inr (fun hm => hq _ hm (by decide)))
  have hn : (u ++ ascii "\n").length = u.length + 1 := by rw [hnl]; simp
  rw [hn] at g2 g3 g4
  have g1' := lexemes_iff.mpr g1
  have lu := lex_spec L (lexemes_iff.mpr hu)
  have lS := lex_spec L hs
  have lc := lex_spec L g1'
  rw [toks_placed] at lu lS lc
  have eS := end_pos hs (Lex.start s) rfl rfl
  have ec := end_pos g1' (Lex.start _) rfl rfl
  have bu : (endOf (steps (Lex.start (u ++ ascii "\n")) ls)).breaks = brk 0 ls := by rw [endOf_breaks, steps_brk]; rfl
  have bS : (endOf (steps (Lex.start s) ls2)).breaks = brk 0 ls2 := by rw [endOf_breaks, steps_brk]; rfl
  have bc : (endOf (steps (Lex.start (u ++ ascii "\n" ++ s)) ls')).breaks = brk 0 ls' := by rw [endOf_breaks, steps_brk]; rfl
  generalize hlu : endOf (steps (Lex.start (u ++ ascii "\n")) ls) = l1 at lu bu
  generalize hlS : endOf (steps (Lex.start s) ls2) = l2 at lS eS bS
  generalize hlc : endOf (steps (Lex.start (u ++ ascii "\n" ++ s)) ls') = l3 at lc ec bc
  have e23 : l3.pos = l2.pos + (u.length + 1) := by
    rw [eS, ec, g3]; simp only [Lex.start]; omega
  -- the first text
  unfold parse at hf1
  rw [lu] at hf1
  obtain ⟨⟨ts1, l1'⟩, hlex, hf1⟩ := Outcome.bind_eq_ok.mp hf1
  obtain ⟨ts1', ht1, hh⟩ := Outcome.bind_eq_ok.mp hlex
  injection hh with hh
  injection hh with hh1 hh2
  subst hh1; subst hh2
  obtain ⟨⟨s', ns⟩, htop, hd⟩ := Outcome.bind_eq_ok.mp hf1
  injection hd with hd
  have hdn : d.nodes = ns := by rw [← hd]
  have hdt : d.tab = s'.tab := by rw [← hd]
  have hdb : d.breaks = l1.breaks := by rw [← hd]
  have hbr : l3.breaks = d.breaks ++ l2.breaks.map (· + (u.length + 1)) := by
    rw [bc, hdb, bu, bS, g4, brk_add]
  have hlog : s'.log = [] := by rw [← herr, ← hd]
  have key : (∃ w : Outcome Doc, (∀ f, parse L f d.tab s = w) ∧ (∀ f, parse L f tab (u ++ ascii "\n" ++ s) = w) ∧
        (w = .fuel ∨ ∀ n, GoesOnAs d n w w)) ∨
      ∃ k, k ≤ f1 ∧ ∀ g, f1 ≤ g → (parse L (g - k) d.tab s = .fuel ∧ parse L g tab (u ++ ascii "\n" ++ s) = .fuel) ∨
        GoesOnAs d (u.length + 1) (parse L (g - k) d.tab s) (parse L g tab (u ++ ascii "\n" ++ s)) := by
    have hpl := placed_shift (P := fun lo hi lo' hi' => lo' = lo + (u.length + 1) ∧ hi' = hi + (u.length + 1)) ls2 0
      (fun lo hi _ => ⟨rfl, rfl⟩)
    rw [g2, toksP_append ht1] at lc
    rcases toksP_alike (L := L) hpl with ⟨ts2, ts2', a, a', ht⟩ | ⟨w, a, a'⟩ | ⟨w, a, a'⟩ | ⟨w, a, a'⟩ | ⟨a, a'⟩
    · right
      rw [a'] at lc; rw [a] at lS
      simp only [Outcome.ok_bind] at lc lS
      obtain ⟨hnil, k, hk, hmore⟩ := more_top (ts := ts2') (e := l3.pos) L f1 _ _ _ _ htop hlog
      refine ⟨k, hk, fun g hg => ?_⟩
      unfold parse
      rw [lS, lc]
      simp only [Outcome.ok_bind]
      have em : (⟨ts1' ++ ts2', l3.pos, tab, []⟩ : PS) = more ts2' l3.pos ⟨ts1', l1.pos, tab, []⟩ := rfl
      have em' : more ts2' l3.pos s' = ⟨ts2', l3.pos, d.tab, []⟩ := by
        unfold more; rw [hnil, hlog, hdt]; rfl
      rw [em, hmore g hg, em', top_acc L (g - k) _ ns]
      rcases sim_top (P := fun lo hi lo' hi' => lo' = lo + (u.length + 1) ∧ hi' = hi + (u.length + 1)) L (g - k)
          ⟨ts2, l2.pos, d.tab, []⟩ ⟨ts2', l3.pos, d.tab, []⟩ [] ⟨ht, ⟨e23, e23⟩, rfl, .nil⟩ with
        ⟨x, y, z, b, b', hsim⟩ | ⟨w, b, b'⟩ | ⟨w, b, b'⟩ | ⟨w, b, b'⟩ | ⟨b, b'⟩
      · right
        rw [b, b']
        simp only [Outcome.ok_bind]
        refine ⟨by rw [hdn], hsim.tab, ?_, hbr⟩
        rw [herr, List.nil_append]
        exact further_map hsim.log
      · right; rw [b, b']; exact rfl
      · right; rw [b, b']; exact rfl
      · right; rw [b, b']; exact rfl
      · left; rw [b, b']; exact ⟨rfl, rfl⟩
    all_goals
      left
      refine ⟨_, fun f => by unfold parse; rw [lS, a]; rfl, fun f => by unfold parse; rw [lc, a']; rfl, ?_⟩
      first | exact Or.inr (fun _ => rfl) | exact Or.inl rfl
  constructor
  · rintro o ⟨ho, f, hf⟩
    rcases key with ⟨w, k1, k2, k3⟩ | ⟨k, hk, key⟩
    · have hw : w = o := (k1 f).symm.trans hf
      subst hw
      exact ⟨w, ⟨ho, 0, k2 0⟩, k3.resolve_left ho _⟩
    · have := key (f + f1) (by omega)
      rw [parse_mono' hf ho (show f ≤ f + f1 - k by omega)] at this
      rcases this with ⟨h0, -⟩ | h0
      · exact absurd h0 ho
      · exact ⟨_, ⟨(not_fuel h0).2, _, rfl⟩, h0⟩
  · rintro o ⟨ho, f, hf⟩
    rcases key with ⟨w, k1, k2, k3⟩ | ⟨k, hk, key⟩
    · have hw : w = o := (k2 f).symm.trans hf
      subst hw
      exact ⟨w, ⟨ho, 0, k1 0⟩, k3.resolve_left ho _⟩
    · have := key (f + f1) (by omega)
      rw [parse_mono' hf ho (show f ≤ f + f1 by omega)] at this
      rcases this with ⟨-, h0⟩ | h0
      · exact absurd h0 ho
      · exact ⟨_, ⟨(not_fuel h0).1, _, rfl⟩, h0⟩

theorem get_munch (s : List Byte) (r : Rule) (n : Nat) (e : (scan rules s).best = some (r, n)) : Longest rules s r n := by
  have := (scan_spec rules s).1
  rwa [e] at this

theorem no_match_nil : NoMatch rules [] := by intro m q h1 h2; simp at h2; omega

/-- C123 fails: a character that begins no token ends the reading without a report. The texts `@⏎` and `b` are each
read without errors, the first as nothing and the second as a symbol; one after the other they are read as nothing. -/
theorem C123_negation_silent_end :
    ∃ u s : List Byte, ∀ (L : Lib) (tab : SymTab), ∃ d d2 d3,
      ReadsTo L tab (u ++ ascii "\n") (.ok d) ∧ d.errors = [] ∧ ReadsTo L d.tab s (.ok d2) ∧ d2.errors = [] ∧
      d2.nodes.length = 1 ∧ ReadsTo L tab (u ++ ascii "\n" ++ s) (.ok d3) ∧ d3.errors = [] ∧ d3.nodes = [] := by
  refine ⟨[64], [98], fun L tab => ?_⟩
  refine ⟨⟨[], [], [], tab⟩, ⟨[.sym (tab.intern [98]).2], [], [], (tab.intern [98]).1⟩, ⟨[], [], [], tab⟩,
    ⟨by simp, 5, rfl⟩, rfl, ⟨by simp, 5, rfl⟩, rfl, rfl, ⟨by simp, 5, rfl⟩, rfl, rfl⟩

/-- C123 fails also when everything is a token: after the string `"\"`, a string in the second text is taken for more
of the first string. `"\"⏎` and `"b"` are each one string; one after the other they are the string `"\"⏎"` and the
symbol `b`, and then a double quote that begins no token. -/
theorem C123_negation_string :
    ∃ (u s : List Byte) (ls ls2 : List (Rule × List Byte)), Chunks (u ++ ascii "\n") ls [] ∧ Chunks s ls2 [] ∧
      ∀ (L : Lib) (tab : SymTab), ∃ d d2 d3,
      ReadsTo L tab (u ++ ascii "\n") (.ok d) ∧ d.errors = [] ∧ ReadsTo L d.tab s (.ok d2) ∧ d2.errors = [] ∧
      ReadsTo L tab (u ++ ascii "\n" ++ s) (.ok d3) ∧ d3.errors = [] ∧
      d.nodes = [.str [34, 92, 34]] ∧ d2.nodes = [.str [34, 98, 34]] ∧
      d3.nodes = [.str [34, 92, 34, 10, 34], .sym (tab.intern [98]).2] := by
  have c1 : Lexemes [34, 92, 34, 10] [(.string, [34, 92, 34]), (.whitespace, [10])] [] :=
    .step (n := 3) (get_munch _ _ _ (by decide +kernel)) (.step (n := 1) (get_munch [10] _ _ (by decide +kernel)) (.done no_match_nil))
  have c2 : Lexemes [34, 98, 34] [(.string, [34, 98, 34])] [] :=
    .step (n := 3) (get_munch _ _ _ (by decide +kernel)) (.done no_match_nil)
  have c3 : Lexemes [34, 92, 34, 10, 34, 98, 34] [(.string, [34, 92, 34, 10, 34]), (.symbol, [98])] [34] := by
    refine .step (n := 5) (get_munch _ _ _ (by decide +kernel)) (.step (n := 1) (get_munch [98, 34] _ _ (by decide +kernel)) (.done ?_))
    have := (scan_spec rules [34]).1
    have e : (scan rules [34]).best = none := by decide +kernel
    rwa [e] at this
  refine ⟨[34, 92, 34], [34, 98, 34], _, _, lexemes_iff.mp c1, lexemes_iff.mp c2, fun L tab => ?_⟩
  refine ⟨⟨[.str [34, 92, 34]], [], [4], tab⟩, ⟨[.str [34, 98, 34]], [], [], tab⟩,
    ⟨[.str [34, 92, 34, 10, 34], .sym (tab.intern [98]).2], [], [], (tab.intern [98]).1⟩,
    ⟨by simp, 5, ?_⟩, rfl, ⟨by simp, 5, ?_⟩, rfl, ⟨by simp, 5, ?_⟩, rfl, rfl, rfl, rfl⟩
  · show parse L 5 tab [34, 92, 34, 10] = _
    unfold parse; rw [lex_spec L c1]; rfl
  · show parse L 5 tab [34, 98, 34] = _
    unfold parse; rw [lex_spec L c2]; rfl
  · show parse L 5 tab [34, 92, 34, 10, 34, 98, 34] = _
    unfold parse; rw [lex_spec L c3]; rfl

/-- The hypotheses are met by `"b"⏎`, with any second text. -/
example (L : Lib) (tab : SymTab) : ∃ (ls : List (Rule × List Byte)) (d : Doc),
    Chunks ([34, 98, 34] ++ ascii "\n") ls [] ∧ ReadsTo L tab ([34, 98, 34] ++ ascii "\n") (.ok d) ∧ d.errors = [] ∧
    (∀ t, (Rule.string, t) ∈ ls → ¬ EndsEscaped t) ∧ d.nodes.length = 1 := by
  have c : Lexemes [34, 98, 34, 10] [(.string, [34, 98, 34]), (.whitespace, [10])] [] :=
    .step (n := 3) (get_munch _ _ _ (by decide +kernel)) (.step (n := 1) (get_munch [10] _ _ (by decide +kernel)) (.done no_match_nil))
  refine ⟨_, ⟨[.str [34, 98, 34]], [], [4], tab⟩, lexemes_iff.mp c, ⟨by simp, 5, ?_⟩, rfl, ?_, rfl⟩
  · show parse L 5 tab [34, 98, 34, 10] = _
    unfold parse; rw [lex_spec L c]; rfl
  · intro t ht
    simp at ht
    subst ht
    rintro ⟨v, hv⟩
    have : v ++ [92#8] ++ [34#8] = [34#8, 98#8] ++ [34#8] := by
      rw [show ascii "\\\"" = [92#8, 34#8] from rfl] at hv
      rw [List.append_assoc]; exact hv.symm
    have := (List.append_inj' this rfl).1
    have := (List.append_inj' (s₁ := v) (s₂ := [34#8]) (t₁ := [92#8]) (t₂ := [98#8]) this rfl).2
    exact absurd this (by decide)

end Ab.Edn.Layout
