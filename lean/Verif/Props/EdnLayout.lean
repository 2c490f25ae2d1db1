import Verif.Proof.EdnLayout
import Verif.Props.EdnLexer
/-! C122: how an EDN text is laid out does not matter. -/
namespace Ab.Edn.Layout

open Spec Re

theorem chunks_suffix : ∀ (l1 : List (Rule × List Byte)) {l2 : List (Rule × List Byte)} {s v rest : List Byte},
    Chunks s (l1 ++ l2) rest → s = texts l1 ++ v → Chunks v l2 rest ∧ ∀ x ∈ l1, x.2 ≠ []
  | [], l2, s, v, rest, h, e => ⟨by simpa [texts, e] using h, by simp⟩
  | (r, t) :: l1, l2, s, v, rest, h, e => by
    generalize hls : (r, t) :: l1 ++ l2 = ls at h
    cases h with
    | done => cases hls
    | @step _ r' n ls rest hm hrest =>
      rw [List.cons_append] at hls
      injection hls with h1 h2
      injection h1 with h1 h3
      subst h1; subst h2
      have hlen : t.length = n := by rw [h3, List.length_take]; exact Nat.min_eq_left hm.le
      have htx : texts ((r, t) :: l1) = t ++ texts l1 := by simp [texts]
      obtain ⟨g1, g2⟩ := chunks_suffix l1 hrest (v := v) (by rw [e, htx, ← hlen, List.append_assoc, List.drop_left])
      refine ⟨g1, ?_⟩
      intro x hx
      rcases List.mem_cons.mp hx with rfl | hx
      · intro h0
        have := hm.pos
        have h0' : t = [] := h0
        rw [h0'] at hlen; simp at hlen; omega
      · exact g2 x hx

theorem placed_shift {P : Place} {n : Nat} : ∀ (ls : List (Rule × List Byte)) (p : Nat),
    (∀ lo hi, p ≤ lo → P lo hi (lo + n) (hi + n)) → All2 (RP P) (placed p ls) (placed (p + n) ls)
  | [], _, _ => .nil
  | (r, t) :: ls, p, h => by
    have ih := placed_shift ls (p + t.length) (fun lo hi hp => h lo hi (by omega))
    rw [show p + t.length + n = p + n + t.length by omega] at ih
    rw [placed, placed]
    by_cases hs : IsSkip r
    · rw [if_pos hs, if_pos hs]; exact ih
    · rw [if_neg hs, if_neg hs]
      refine .cons ⟨rfl, ?_⟩ ih
      have := h p (p + t.length) (Nat.le_refl _)
      rwa [show p + t.length + n = p + n + t.length by omega] at this

theorem placed_stay {P : Place} : ∀ (ls : List (Rule × List Byte)) (p : Nat), (∀ x ∈ ls, x.2 ≠ []) →
    (∀ lo hi, lo < p + (texts ls).length → P lo hi lo hi) → All2 (RP P) (placed p ls) (placed p ls)
  | [], _, _, _ => .nil
  | (r, t) :: ls, p, hne, h => by
    have htx : (texts ((r, t) :: ls)).length = t.length + (texts ls).length := by simp [texts]
    have ht : 0 < t.length := by
      have := hne (r, t) (by simp)
      cases t with
      | nil => exact absurd rfl this
      | cons => simp
    have ih := placed_stay ls (p + t.length) (fun x hx => hne x (by simp [hx])) (fun lo hi hp => h lo hi (by omega))
    rw [placed]
    by_cases hs : IsSkip r
    · rw [if_pos hs]; exact ih
    · rw [if_neg hs]
      exact .cons ⟨rfl, h _ _ (by omega)⟩ ih

theorem blank_fits {w : List Byte} (hw : Blank noQuote w) (hne : w ≠ []) : 
    (∃ b u, w = b :: u ∧ starts b = true) ∧ 34#8 ∉ w ∧ lastOr 34#8 w ≠ 92#8 := by
  induction hw with
  | nil => exact absurd rfl hne
  | @space b w hb hw ih =>
    have hb' : isWs b = true := (ws_iff b).mpr hb
    have hb34 : b ≠ 34#8 ∧ b ≠ 92#8 := by constructor <;> (intro h; subst h; exact absurd hb' (by decide))
    refine ⟨⟨b, w, rfl, by simp [starts, hb']⟩, ?_, ?_⟩
    · intro hm
      rcases List.mem_cons.mp hm with h | h
      · exact hb34.1 h.symm
      · have h0 : w ≠ [] := by intro h0; rw [h0] at h; cases h
        exact (ih h0).2.1 h
    · cases w with
      | nil => exact hb34.2
      | cons c w => exact (ih (by simp)).2.2
  | @comment u w hu hw ih =>
    refine ⟨⟨59#8, u ++ 10#8 :: w, by simp [ascii], rfl⟩, ?_, ?_⟩
    · intro hm
      have hsplit : ascii ";" ++ u ++ ascii "\n" ++ w = 59#8 :: (u ++ 10#8 :: w) := by simp [ascii]
      rw [hsplit] at hm
      rcases List.mem_cons.mp hm with h | h
      · exact absurd h (by decide)
      · rcases List.mem_append.mp h with h | h
        · exact (hu _ h).2 (by decide)
        · rcases List.mem_cons.mp h with h | h
          · exact absurd h (by decide)
          · have h0 : w ≠ [] := by intro h0; rw [h0] at h; cases h
            exact (ih h0).2.1 h
    · rw [lastOr_append, lastOr_append]
      cases w with
      | nil => exact (by decide : (10#8 : Byte) ≠ 92#8)
      | cons c w => exact (ih (by simp)).2.2

/-- C122, with comments that contain no double quote: take any text cut at the end of a piece (a token, a comment or
a stretch of whitespace), and put any spaces, tabs, commas, line breaks and such comments there. The new text is read
like the old one: the same nodes, symbols and errors, with everything that stands after the gap moved by as many
bytes, and the line breaks are those of the old text, those after the gap moved, and of the blank text; or it fails in the same way. The old text may be malformed in any way. Read backwards: blank text may be
left out wherever the pieces next to it stay what they are. -/
theorem C122_blank_between_tokens_partial (L : Lib) (fuel : Nat) (tab : SymTab) (u v w rest : List Byte)
    (l1 l2 : List (Rule × List Byte)) (h : Chunks (u ++ v) (l1 ++ l2) rest) (hu : u = (l1.map (·.2)).flatten)
    (hw : Blank noQuote w) :
    ReadAlike (Shifted u.length w.length) (parse L fuel tab (u ++ v)) (parse L fuel tab (u ++ (w ++ v))) ∧
    BreaksMoved u.length w (parse L fuel tab (u ++ v)) (parse L fuel tab (u ++ (w ++ v))) := by
  have hu' : u = texts l1 := hu
  subst hu'
  obtain ⟨hv, hne⟩ := chunks_suffix l1 h rfl
  by_cases h0 : w = []
  · subst h0
    refine ⟨chunks_alike h h ?_ ?_ fuel tab, breaks_moved h h (by rw [brk_append]; simp [newlines]) fuel tab⟩
    · rw [placed_append]
      refine All2.append (placed_stay l1 0 hne (fun lo hi hp => Or.inl ⟨by omega, rfl, rfl⟩)) ?_
      exact placed_shift (n := 0) l2 _ (fun lo hi hp => Or.inr ⟨by omega, rfl, rfl⟩)
    · refine Or.inr ⟨?_, rfl, rfl⟩
      simp [texts]; omega
  · obtain ⟨f1, f2, f3⟩ := blank_fits hw h0
    obtain ⟨l2', g1, g2, g3, g4⟩ := chunks_blank hw hv
    obtain ⟨ls', k1, k2, k3, k4⟩ := chunks_insert ⟨f1, f2, Or.inr f3⟩ g1 l1 _ h rfl
    have ht : (texts (l1 ++ l2)).length = (texts l1).length + (texts l2).length := by simp [texts]
    refine ⟨chunks_alike h k1 ?_ ?_ fuel tab, breaks_moved h k1 (by rw [k4, g4, Nat.zero_add, List.append_assoc]) fuel tab⟩
    · rw [placed_append, k2, g2]
      refine All2.append (placed_stay l1 0 hne (fun lo hi hp => Or.inl ⟨by omega, rfl, rfl⟩)) ?_
      exact placed_shift l2 _ (fun lo hi hp => Or.inr ⟨by omega, rfl, rfl⟩)
    · refine Or.inr ⟨by omega, by omega, by omega⟩

/-- C122: a comment without a double quote may also end the text without a line break; the line breaks stay the same. -/
theorem C122_last_line_partial (L : Lib) (fuel : Nat) (tab : SymTab) (s x : List Byte) (ls : List (Rule × List Byte))
    (h : Chunks s ls []) (hx : ∀ b ∈ x, ¬ oneOf "\n" b ∧ noQuote b) :
    ReadAlike (Shifted s.length (x.length + 1)) (parse L fuel tab s) (parse L fuel tab (s ++ ascii ";" ++ x)) ∧
    BreaksMoved s.length [] (parse L fuel tab s) (parse L fuel tab (s ++ ascii ";" ++ x)) := by
  have hs : s = texts ls := by
    have := (lexemes_text (lexemes_iff.mpr h)).1
    simpa [texts] using this
  have h59 : ascii ";" = [59#8] := rfl
  have no : NoToken (59#8 :: x) := by
    intro m q hm1 hm2 hq
    obtain ⟨m, rfl⟩ : ∃ k, m = k + 1 := ⟨m - 1, by omega⟩
    rw [List.take_succ_cons] at hq
    by_cases hp : plain q = true
    · exact absurd (plain_bytes hp hq (b := 59#8) (by simp)).1 (by decide)
    · have hq3 : q = .string ∨ q = .whitespace ∨ q = .comment := by
        cases q <;> first | exact absurd rfl hp | simp
      rcases hq3 with rfl | rfl | rfl
      · obtain ⟨z, e⟩ := string_head hq
        injection e with e; revert e; decide
      · exact absurd (hq.2 59#8 (by simp)) (by decide)
      · obtain ⟨u, e, hu⟩ := hq
        have e2 : x.take m = u ++ [10#8] := by
          rw [h59] at e
          injection e
        have : (10#8 : Byte) ∈ x := List.mem_of_mem_take (i := m) (by rw [e2]; simp)
        exact (hx _ this).1 (by decide)
  have hfit : Fits (59#8 :: x) [] := by
    refine ⟨⟨59#8, x, rfl, rfl⟩, ?_, Or.inl rfl⟩
    intro hm
    rcases List.mem_cons.mp hm with h | h
    · exact absurd h (by decide)
    · exact (hx _ h).2 (by decide)
  have h' : Chunks s (ls ++ []) [] := by rw [List.append_nil]; exact h
  obtain ⟨ls', k1, k2, k3, k4⟩ := chunks_insert (l2 := []) (l2' := []) (rest' := 59#8 :: x) hfit
    (by rw [List.append_nil]; exact .done no) ls s h' (by rw [List.append_nil]; exact hs)
  rw [← hs, List.append_nil] at k1
  have hne := (chunks_suffix ls (v := []) h' (by rw [List.append_nil]; exact hs)).2
  have hread : tailRead (59#8 :: x) = x.length + 1 := by
    unfold tailRead
    rw [if_neg (by simp)]
    obtain ⟨-, hle, h1, h2⟩ := scan_spec rules (59#8 :: x)
    cases hst : (scan rules (59#8 :: x)).stuck with
    | false => rw [h1 hst]; simp
    | true =>
      exfalso
      obtain ⟨hlt, hno⟩ := h2 hst
      have hc : (Rule.comment, commentRe) ∈ rules := by simp [rules]
      refine hno _ hc [10#8] (comment_iff.mpr ⟨x.take (scan rules (59#8 :: x)).read, ?_, ?_⟩)
      · rw [List.take_succ_cons, h59]; rfl
      · intro b hb; exact (hx b (List.mem_of_mem_take hb)).1
  rw [h59, List.append_assoc]
  refine ⟨chunks_alike h k1 ?_ ?_ fuel tab, ?_⟩
  · rw [k2]
    simp only [placed, List.append_nil]
    rw [hs]
    exact placed_stay ls 0 hne (fun lo hi hp => Or.inl ⟨by omega, rfl, rfl⟩)
  · have : (texts ([] : List (Rule × List Byte))).length = 0 := rfl
    have e0 : tailRead [] = 0 := rfl
    rw [hread, k3, hs, e0]
    exact Or.inr ⟨by omega, by omega, by omega⟩
  · rw [hs]
    rw [hs] at h' k1
    exact breaks_moved h' k1 (by rw [k4]; simp [brk, newlines]) fuel tab

theorem placed_significant : ∀ (ls : List (Rule × List Byte)) (p : Nat), (placed p ls).map (·.2) = significant ls
  | [], _ => rfl
  | (r, t) :: ls, p => by
    rw [placed, significant, List.filter_cons]
    by_cases hs : IsSkip r
    · rw [if_pos hs, if_neg (by simp [hs])]; exact placed_significant ls _
    · rw [if_neg hs, if_pos (by simp [hs]), List.map_cons]
      congr 1
      exact placed_significant ls _

theorem all2_of_map : ∀ {xs ys : List (Nat × Rule × List Byte)}, xs.map (·.2) = ys.map (·.2) →
    All2 (RP (fun _ _ _ _ => True)) xs ys
  | [], [], _ => .nil
  | [], _ :: _, h => by cases h
  | _ :: _, [], h => by cases h
  | x :: xs, y :: ys, h => by
    rw [List.map_cons, List.map_cons] at h
    injection h with h1 h2
    exact .cons ⟨h1, trivial⟩ (all2_of_map h2)

theorem all2_index {α : Type} {R : α → α → Prop} {as bs : List α} (h : All2 R as bs) :
    All2 (fun a b => R a b ∧ ∃ i : Nat, as[i]? = some a ∧ bs[i]? = some b) as bs := by
  induction h with
  | nil => exact .nil
  | cons h _ ih =>
    refine .cons ⟨h, 0, rfl, rfl⟩ (All2.imp ih ?_)
    rintro a b ⟨hr, i, h1, h2⟩
    exact ⟨hr, i + 1, by simpa using h1, by simpa using h2⟩

/-- C122: texts with the same tokens are read alike, whatever whitespace and comments stand between and around
the tokens and whatever is left over at the end of either: the same nodes and symbols, and the same errors, each
at the same token (or at the end); or both fail in the same way. -/
theorem C122_same_tokens (L : Lib) (fuel : Nat) (tab : SymTab) (s s' rest rest' : List Byte)
    (ls ls' : List (Rule × List Byte)) (h : Chunks s ls rest) (h' : Chunks s' ls' rest')
    (hsame : significant ls = significant ls') :
    ReadAlike (SameToken L s s') (parse L fuel tab s) (parse L fuel tab s') := by
  have h := lexemes_iff.mpr h
  have h' := lexemes_iff.mpr h'
  have l1 := lex_spec L h
  have l2 := lex_spec L h'
  rw [toks_placed] at l1 l2
  have hp : All2 (RP (fun _ _ _ _ => True)) (placed 0 ls) (placed 0 ls') :=
    all2_of_map (by rw [placed_significant, placed_significant, hsame])
  rcases toksP_alike (L := L) hp with ⟨ts, ts', e, e', ht⟩ | ⟨w, e, e'⟩ | ⟨w, e, e'⟩ | ⟨w, e, e'⟩ | ⟨e, e'⟩
  · rw [e] at l1; rw [e'] at l2
    refine parse_alike l1 l2 (All2.imp (all2_index ht) ?_) ⟨_, _, _, _, l1, l2, Or.inr ⟨rfl, rfl, rfl, rfl⟩⟩ fuel tab
    rintro a b ⟨⟨h1, h2, -⟩, i, h3, h4⟩
    exact ⟨h1, h2, _, _, _, _, l1, l2, Or.inl ⟨i, a, b, h3, h4, h2, rfl, rfl, rfl, rfl⟩⟩
  all_goals
    unfold parse
    rw [l1, l2, e, e']
    first | exact rfl | exact trivial

/-! The claim fails for comments with a double quote. -/

theorem chunks_demo : Chunks [34, 92, 34, 98] [(.string, [34, 92, 34]), (.symbol, [98])] [] := by
  obtain ⟨ls, rest, h⟩ := lexemes_exists [34, 92, 34, 98]
  have h1 : Lexemes [34, 92, 34, 98] [(.string, [34, 92, 34]), (.symbol, [98])] [] := by
    have a : Longest rules [34, 92, 34, 98] .string 3 := by
      have := (scan_spec rules [34, 92, 34, 98]).1
      have e : (scan rules [34, 92, 34, 98]).best = some (.string, 3) := by decide +kernel
      rwa [e] at this
    have b : Longest rules [98] .symbol 1 := by
      have := (scan_spec rules [98]).1
      have e : (scan rules [98]).best = some (.symbol, 1) := by decide +kernel
      rwa [e] at this
    have c : NoMatch rules [] := by
      intro m q h1 h2; simp at h2; omega
    exact .step (n := 3) a (.step (n := 1) b (.done c))
  exact lexemes_iff.mp h1

/-- C122 fails: the comment `;"` put between the string `"\"` and `b` becomes part of the string. -/
theorem C122_negation :
    ∃ (u v w rest : List Byte) (l1 l2 : List (Rule × List Byte)), Chunks (u ++ v) (l1 ++ l2) rest ∧
      u = (l1.map (·.2)).flatten ∧ Blank anyChar w ∧
      ∀ (L : Lib) (tab : SymTab) (place : Nat → Nat → Nat → Nat → Prop),
        ¬ ReadAlike place (parse L 5 tab (u ++ v)) (parse L 5 tab (u ++ (w ++ v))) := by
  refine ⟨[34, 92, 34], [98], [59, 34, 10], [], [(.string, [34, 92, 34])], [(.symbol, [98])], chunks_demo, rfl, ?_, ?_⟩
  · exact .comment (u := [34#8]) (w := []) (by intro b hb; simp at hb; subst hb; exact ⟨by decide, trivial⟩) .nil
  · intro L tab place h
    have e1 : parse L 5 tab [34, 92, 34, 98] =
        .ok ⟨[.str [34, 92, 34], .sym (tab.intern [98]).2], [], [], (tab.intern [98]).1⟩ := rfl
    have e2 : parse L 5 tab [34, 92, 34, 59, 34, 10, 98] =
        .ok ⟨[.str [34, 92, 34, 59, 34], .sym (tab.intern [98]).2], [], [6], (tab.intern [98]).1⟩ := by
      have l2 : lex L [34, 92, 34, 59, 34, 10, 98] = .ok ([⟨.string, [34, 92, 34, 59, 34], 0, 5⟩, ⟨.symbol, [98], 6, 7⟩],
          ⟨[], 7, false, [6]⟩) := by
        have a : Longest rules [34, 92, 34, 59, 34, 10, 98] .string 5 := by
          have := (scan_spec rules [34, 92, 34, 59, 34, 10, 98]).1
          have e : (scan rules [34, 92, 34, 59, 34, 10, 98]).best = some (.string, 5) := by decide +kernel
          rwa [e] at this
        have b : Longest rules [10, 98] .whitespace 1 := by
          have := (scan_spec rules [10, 98]).1
          have e : (scan rules [10, 98]).best = some (.whitespace, 1) := by decide +kernel
          rwa [e] at this
        have c : Longest rules [98] .symbol 1 := by
          have := (scan_spec rules [98]).1
          have e : (scan rules [98]).best = some (.symbol, 1) := by decide +kernel
          rwa [e] at this
        have d : NoMatch rules [] := by intro m q h1 h2; simp at h2; omega
        rw [lex_spec L (.step (n := 5) a (.step (n := 1) b (.step (n := 1) c (.done d))))]
        rfl
      unfold parse
      rw [l2]
      rfl
    rw [show ([34, 92, 34] ++ [98] : List Byte) = [34, 92, 34, 98] from rfl,
      show ([34, 92, 34] ++ ([59, 34, 10] ++ [98]) : List Byte) = [34, 92, 34, 59, 34, 10, 98] from rfl] at h
    have h' := h
    rw [e1, e2] at h'
    have := h'.1
    injection this with this
    injection this with this
    exact absurd this (by decide)

/-- The hypotheses are met by `"\"b` cut before `b`, and by the blank text ` ,;x⏎`. -/
example : Chunks ([34, 92, 34] ++ [98]) ([(.string, [34, 92, 34])] ++ [(.symbol, [98])]) [] ∧
    Blank noQuote [32, 44, 59, 120, 10] := by
  refine ⟨chunks_demo, .space (by decide) (.space (by decide) (.comment (u := [120#8]) (w := []) ?_ .nil))⟩
  intro b hb; simp at hb; subst hb; exact ⟨by decide, by unfold noQuote; decide⟩

/-- `"\" b` has the same tokens as `"\"b`. -/
example : Chunks [34, 92, 34, 32, 98] [(.string, [34, 92, 34]), (.whitespace, [32]), (.symbol, [98])] [] ∧
    significant [(.string, [34, 92, 34]), (.whitespace, [32]), (.symbol, [98])] =
      significant [(.string, [34, 92, 34]), (.symbol, [98])] := by
  refine ⟨lexemes_iff.mp ?_, by decide⟩
  have a : Longest rules [34, 92, 34, 32, 98] .string 3 := by
    have := (scan_spec rules [34, 92, 34, 32, 98]).1
    have e : (scan rules [34, 92, 34, 32, 98]).best = some (.string, 3) := by decide +kernel
    rwa [e] at this
  have b : Longest rules [32, 98] .whitespace 1 := by
    have := (scan_spec rules [32, 98]).1
    have e : (scan rules [32, 98]).best = some (.whitespace, 1) := by decide +kernel
    rwa [e] at this
  have c : Longest rules [98] .symbol 1 := by
    have := (scan_spec rules [98]).1
    have e : (scan rules [98]).best = some (.symbol, 1) := by decide +kernel
    rwa [e] at this
  have d : NoMatch rules [] := by intro m q h1 h2; simp at h2; omega
  exact .step (n := 3) a (.step (n := 1) b (.step (n := 1) c (.done d)))

end Ab.Edn.Layout
