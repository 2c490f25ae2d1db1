import Verif.Proof.EdnStack
import Verif.Props.EdnTree
import Verif.Props.EdnParse
/-! C107: how much stack parsing a text takes. -/
namespace Ab.Edn.Stack

open Ab.Edn Spec Re

/-- Tokens whose kinds are given. -/
theorem tall_tree : ∀ (x : Tree) (ts rest : List Token) (st : List Frame), ts.map kt = kinds L x →
    tallest st (ts ++ rest) = max (st.length + depth x) (tallest (datum st) rest) := by
  have hge : ∀ (st : List Frame) (ts : List Token), st.length ≤ tallest st ts := fun st ts => tall_le (Nat.le_refl _)
  have atom : ∀ (k : Kind) (w : List Byte) (ts rest : List Token) (st : List Frame), ts.map kt = [(k, w)] →
      (tokenStep st k = some (datum st)) → tallest st (ts ++ rest) = max (st.length + 0) (tallest (datum st) rest) := by
    intro k w ts rest st h hk
    match ts, h with
    | [t], h =>
      have : t.kind = k := by simp [kt] at h; exact h.1
      simp only [List.cons_append, List.nil_append, tallest, this, hk, Nat.add_zero]
  have seq : ∀ (xs : List Tree), (∀ x ∈ xs, ∀ (ts rest : List Token) (st : List Frame), ts.map kt = kinds L x →
      tallest st (ts ++ rest) = max (st.length + depth x) (tallest (datum st) rest)) →
      ∀ (ts rest : List Token) (st : List Frame), ts.map kt = kindsList L xs →
        tallest (.seq :: st) (ts ++ rest) = max (st.length + 1 + depthList xs) (tallest (.seq :: st) rest) := by
    intro xs
    induction xs with
    | nil =>
      intro _ ts rest st h
      simp only [kindsList, List.map_eq_nil_iff] at h
      subst h
      have := hge (.seq :: st) rest
      simp only [List.nil_append, depthList, List.length_cons] at *
      omega
    | cons x xs ih =>
      intro hx ts rest st h
      rw [kindsList, List.map_eq_append_iff] at h
      obtain ⟨a, b, rfl, ha, hb⟩ := h
      rw [List.append_assoc, hx x (by simp) a _ _ ha]
      show max _ (tallest (.seq :: st) (b ++ rest)) = _
      rw [ih (fun y hy => hx y (by simp [hy])) b rest st hb]
      simp only [depthList, List.length_cons]
      omega
  have closed : ∀ (f : Frame) (op cl : Kind) (wo wc : List Byte) (mid : List (Kind × List Byte)) (d : Nat),
      (∀ st, tokenStep st op = some (f :: datum st)) → (∀ st, tokenStep (f :: st) cl = some st) →
      (∀ (ts rest : List Token) (st : List Frame), ts.map kt = mid →
        tallest (f :: st) (ts ++ rest) = max (st.length + 1 + d) (tallest (f :: st) rest)) →
      ∀ (ts rest : List Token) (st : List Frame), ts.map kt = (op, wo) :: mid ++ [(cl, wc)] →
        tallest st (ts ++ rest) = max (st.length + (d + 1)) (tallest (datum st) rest) := by
    intro f op cl wo wc mid d ho hc hm ts rest st h
    rw [List.cons_append, List.map_eq_cons_iff] at h
    obtain ⟨t, ts', rfl, ht, h⟩ := h
    rw [List.map_eq_append_iff] at h
    obtain ⟨a, b, rfl, ha, hb⟩ := h
    match b, hb with
    | [c], hb =>
      have htk : t.kind = op := congrArg Prod.fst ht
      have hck : c.kind = cl := by simp [kt] at hb; exact hb.1
      rw [List.cons_append, tallest, htk, ho]
      simp only
      rw [List.append_assoc, hm a _ _ ha]
      simp only [List.cons_append, List.nil_append, tallest, hck, hc, List.length_cons, datum_length]
      have := hge (datum st) rest
      rw [datum_length] at this
      omega
  apply Tree.ind
  · intro ts rest st h; rw [kinds] at h; exact atom _ _ _ _ _ h rfl
  · intro b ts rest st h
    cases b <;> (rw [kinds] at h; exact atom _ _ _ _ _ h rfl)
  · intro v ts rest st h; rw [kinds] at h; exact atom _ _ _ _ _ h rfl
  · intro v ts rest st h; rw [kinds] at h; exact atom _ _ _ _ _ h rfl
  · intro v ts rest st h; rw [kinds] at h; exact atom _ _ _ _ _ h rfl
  · intro v ts rest st h; rw [kinds] at h; exact atom _ _ _ _ _ h rfl
  · intro v ts rest st h; rw [kinds] at h; exact atom _ _ _ _ _ h rfl
  · intro xs ih ts rest st h
    rw [kinds] at h
    rw [depth]
    exact closed .seq _ _ _ _ _ _ (fun _ => rfl) (fun _ => rfl) (seq xs ih) ts rest st h
  · intro xs ih ts rest st h
    rw [kinds] at h
    rw [depth]
    exact closed .seq _ _ _ _ _ _ (fun _ => rfl) (fun _ => rfl) (seq xs ih) ts rest st h
  · intro es ih ts rest st h
    rw [kinds] at h
    rw [depth]
    refine closed .key _ _ _ _ _ _ (fun _ => rfl) (fun _ => rfl) ?_ ts rest st h
    clear h
    induction es with
    | nil =>
      intro ts rest st h
      simp only [kindsEntries, List.map_eq_nil_iff] at h
      subst h
      have := hge (.key :: st) rest
      simp only [List.nil_append, depthEntries, List.length_cons] at *
      omega
    | cons e es ihe =>
      intro ts rest st h
      obtain ⟨k, v⟩ := e
      obtain ⟨h1, h2⟩ := ih (k, v) (by simp)
      rw [kindsEntries, kindsEntry, List.append_assoc, List.map_eq_append_iff] at h
      obtain ⟨a, b, rfl, ha, h⟩ := h
      rw [List.map_eq_append_iff] at h
      obtain ⟨b, c, rfl, hb, hc⟩ := h
      rw [List.append_assoc, h1 a _ _ ha, List.append_assoc]
      show max _ (tallest (.val :: st) _) = _
      rw [h2 b _ _ hb]
      show max _ (max _ (tallest (.key :: st) _)) = _
      rw [ihe (fun y hy => ih y (by simp [hy])) c rest st hc]
      simp only [depthEntries, depthEntry, List.length_cons]
      omega

theorem tall_trees : ∀ (xs : List Tree) (ts : List Token), ts.map kt = kindsList L xs → tallest [] ts = depthList xs
  | [], ts, h => by
    simp only [kindsList, List.map_eq_nil_iff] at h
    subst h
    rfl
  | x :: xs, ts, h => by
    rw [kindsList, List.map_eq_append_iff] at h
    obtain ⟨a, b, rfl, ha, hb⟩ := h
    rw [tall_tree x a b [] ha]
    show max _ (tallest [] b) = _
    rw [tall_trees xs b hb, depthList, List.length_nil, Nat.zero_add]

/-- C107, exactly: with stack for `room` open collections, parsing any text does what parsing it with unlimited stack does if
at no time more than `room` collections are open, and overruns the stack otherwise – however the texts ends, also when
parsing it would throw or go on for ever. Missing: the texts of the second kind, for which the property is false. -/
theorem C107_stack_partial (L : Lib) (hL : Lawful L) (tab : SymTab) (text : List Byte) (ts : List Token) (l : Lex)
    (hlex : lex L text = .ok (ts, l)) (room : Nat) :
    (tallest [] ts ≤ room → ∀ fuel, parseD L room fuel tab text = parse L fuel tab text) ∧
    (room < tallest [] ts → ∀ fuel, 2 * ts.length + 2 ≤ fuel → parseD L room fuel tab text = .ub stackUb) := by
  refine ⟨fun h fuel => ?_, fun h fuel hf => ?_⟩
  · have := same_top hL room fuel ⟨ts, l.pos, tab, []⟩ []
    unfold parseD parse
    rw [hlex]
    simp only [Outcome.ok_bind]
    rcases this with ⟨e, _⟩ | ⟨_, hn⟩
    · rw [e]
    · exact absurd h hn
  · have := same_top hL room fuel ⟨ts, l.pos, tab, []⟩ []
    unfold parseD
    rw [hlex]
    simp only [Outcome.ok_bind]
    rcases this with ⟨e, ⟨s, x, _, hx⟩ | ⟨_, he⟩ | ⟨_, ht⟩⟩ | ⟨e, _⟩
    · have := hx.2 trivial; simp only at this; omega
    · have := he hf; simp only at this; omega
    · simp only at ht; omega
    · rw [e]; rfl

/-- C107 for documents: take any trees that can be written (C40). With stack for `room` open collections their text parses,
to what C40 says, if no tree is nested deeper than `room`, and overruns the stack if one is. -/
theorem C107_document_partial (L : Lib) (hL : Lawful L) (tab : SymTab) (ts : List Tree) (hw : ∀ t ∈ ts, Writable L.arith t) (room : Nat) :
    (depthList ts ≤ room → ∀ fuel, parseD L room fuel tab (textOf ts) = parse L fuel tab (textOf ts)) ∧
    (room < depthList ts → ∀ fuel, 2 * (wordsList ts).length + 2 ≤ fuel →
      parseD L room fuel tab (textOf ts) = .ub "stack overflow") := by
  have hwords : (kindsList L ts).map (·.2) = wordsList ts := kindsList_words (fun x _ => kinds_words x)
  have hkl : (kindsList L ts).length = (wordsList ts).length := by rw [← hwords, List.length_map]
  obtain ⟨ls, hls, htoks⟩ := lexemes_spaced (L := L) (kindsList L ts)
    (kindsList_word (fun x hx => kinds_word L x (hw x hx)))
  rw [hwords] at hls
  change Lexemes (textOf ts) ls [] at hls
  obtain ⟨toks', ht, hk⟩ := htoks 0
  have hlex : lex L (textOf ts) = .ok (toks', endOf (steps (Lex.start (textOf ts)) ls)) := by
    rw [lex_spec L hls, ht]; rfl
  have htl : toks'.length = (wordsList ts).length := by rw [← hkl, ← hk, List.length_map]
  have := C107_stack_partial L hL tab (textOf ts) toks' _ hlex room
  rw [tall_trees ts toks' hk, htl] at this
  exact this

theorem nest_writable {A : Arith U64} : ∀ n, Writable A (nest n)
  | 0 => .nil
  | n + 1 => .list (by intro x hx; rw [List.mem_singleton.mp hx]; exact nest_writable n)

theorem nest_depth : ∀ n, depth (nest n) = n
  | 0 => by simp [nest, depth]
  | n + 1 => by simp [nest, depth, depthList, nest_depth n]

theorem nest_words : ∀ n, (words (nest n)).length = 2 * n + 1
  | 0 => by simp [nest, words]
  | n + 1 => by simp [nest, words, wordsList, nest_words n]; omega

/-- C107 is false of the code: whatever stack there is, there is a document – a list in a list in a list … – that the grammar
allows, of a text of 4 bytes a level, that a parser with more stack reads without an error, and whose parsing overruns the stack. -/
theorem C107_negation (L : Lib) (hL : Lawful L) (room : Nat) (hr : room < 2^62) :
    ∃ t, Writable L.arith t ∧
      (∀ fuel, 4 * room + 10 ≤ fuel → parseD L room fuel SymTab.empty (textOf [t]) = .ub "stack overflow") ∧
      ∃ d, d.errors = [] ∧ ReadsList d.tab (asRead L) [t] d.nodes ∧
        ∀ fuel, 4 * room + 10 ≤ fuel → parseD L (room + 1) fuel SymTab.empty (textOf [t]) = .ok d := by
  have hw : ∀ t ∈ [nest (room + 1)], Writable L.arith t := by
    intro t ht; rw [List.mem_singleton.mp ht]; exact nest_writable _
  have hd : depthList [nest (room + 1)] = room + 1 := by simp [depthList, nest_depth]
  have hl : (wordsList [nest (room + 1)]).length = 2 * (room + 1) + 1 := by simp [wordsList, nest_words]
  refine ⟨nest (room + 1), nest_writable _, fun fuel hf => ?_, ?_⟩
  · exact (C107_document_partial L hL SymTab.empty [nest (room + 1)] hw room).2 (by omega) fuel (by omega)
  · obtain ⟨d, h1, h2, h3, -⟩ := C40_round_trip_partial L hL [] [nest (room + 1)] hw
      (by rw [hl]; simp only [List.length_nil]; omega)
    refine ⟨d, h2, h3, fun fuel hf => ?_⟩
    rw [(C107_document_partial L hL SymTab.empty [nest (room + 1)] hw (room + 1)).1 (by omega) fuel]
    exact h1 fuel (by omega)

/-- The document of `C107_document_partial`: `[ a { ( 1 ) [ [ ] ] } ]` has four collections open at the most. -/
example : depthList [.vec [.sym [97], .map [(.list [.int 1], .vec [.vec []])]]] = 4 ∧
    (∀ t ∈ [Tree.vec [.sym [97], .map [(.list [.int 1], .vec [.vec []])]]], Writable demo.arith t) := by
  refine ⟨by simp [depthList, depth, depthEntries, depthEntry], ?_⟩
  intro t ht
  rw [List.mem_singleton.mp ht]
  refine .vec ?_
  intro x hx
  rcases List.mem_cons.mp hx with rfl | hx
  · exact .sym ⟨symbol_lang rfl, by decide, by decide, by decide⟩
  · rw [List.mem_singleton.mp hx]
    refine .map ?_ ?_ (by simp)
    · intro e he; rw [List.mem_singleton.mp he]
      exact .list (by intro y hy; rw [List.mem_singleton.mp hy]; exact .int (by decide))
    · intro e he; rw [List.mem_singleton.mp he]
      exact .vec (by intro y hy; rw [List.mem_singleton.mp hy]; exact .vec (by simp))

/-- A text whose collections are not closed, `( [ {`: three are open. -/
example : tallest [] [⟨.lparen, [40], 0, 1⟩, ⟨.lbracket, [91], 1, 2⟩, ⟨.lbrace, [123], 2, 3⟩] = 3 := by decide

/-- The parser gives up at the `}` of `(}((`, so that what follows takes no stack. -/
example : tallest [] [⟨.lparen, [40], 0, 1⟩, ⟨.rbrace, [125], 1, 2⟩, ⟨.lparen, [40], 2, 3⟩, ⟨.lparen, [40], 3, 4⟩] = 1 := by
  decide

end Ab.Edn.Stack
