import Verif.Props.EdnLayout
import Verif.Props.EdnTree
/-! C40 in any layout: the trees are read from every text whose tokens are their words. -/
namespace Ab.Edn.Layout

open Spec Re

theorem toks_texts {L : Lib} : ∀ {ls : List (Rule × List Byte)} {p : Nat} {ts : List Token}, toks L p ls = .ok ts →
    ts.map (·.text) = (significant ls).map (·.2)
  | [], _, ts, h => by injection h with h; rw [← h]; rfl
  | (r, t) :: ls, p, ts, h => by
    simp only [toks] at h
    obtain ⟨k, hk, h⟩ := Outcome.bind_eq_ok.mp h
    obtain ⟨ts', ht, h⟩ := Outcome.bind_eq_ok.mp h
    have ih := toks_texts ht
    rw [significant, List.filter_cons]
    cases k with
    | none =>
      injection h with h; subst h
      rw [if_neg (by simp [tokenOf_none.mp hk])]; exact ih
    | some k =>
      injection h with h; subst h
      have hs : ¬ IsSkip r := by intro hs; rw [tokenOf_skip hs] at hk; cases hk
      rw [if_pos (by simp [hs]), List.map_cons, List.map_cons]
      congr 1

/-- The first kind, in order of preference, that has the text. -/
def Preferred (r : Rule) (t : List Byte) : Prop :=
  TokenText r t ∧ ∃ i : Nat, tokenOrder[i]? = some r ∧ ∀ (j : Nat) q, j < i → tokenOrder[j]? = some q → ¬ TokenText q t

theorem preferred_unique {r r' : Rule} {t : List Byte} (h : Preferred r t) (h' : Preferred r' t) : r = r' := by
  obtain ⟨a, i, b, c⟩ := h
  obtain ⟨a', i', b', c'⟩ := h'
  rcases Nat.lt_trichotomy i i' with hlt | rfl | hlt
  · exact absurd a (c' i r hlt b)
  · rw [b] at b'; injection b'
  · exact absurd a' (c i' r' hlt b')

theorem chunks_preferred {s : List Byte} {ls rest} (h : Chunks s ls rest) : ∀ x ∈ ls, Preferred x.1 x.2 := by
  induction h with
  | done => intro x hx; cases hx
  | step hm _ ih =>
    intro x hx
    rcases List.mem_cons.mp hx with rfl | hx
    · exact ⟨hm.token, hm.preferred⟩
    · exact ih x hx

theorem same_kinds : ∀ {xs ys : List (Rule × List Byte)}, (∀ x ∈ xs, Preferred x.1 x.2) → (∀ y ∈ ys, Preferred y.1 y.2) →
    xs.map (·.2) = ys.map (·.2) → xs = ys
  | [], [], _, _, _ => rfl
  | [], _ :: _, _, _, h => by cases h
  | _ :: _, [], _, _, h => by cases h
  | (r, t) :: xs, (r', t') :: ys, hx, hy, h => by
    rw [List.map_cons, List.map_cons] at h
    injection h with h1 h2
    have h1 : t = t' := h1
    subst h1
    rw [(preferred_unique (hx (r, t) (by simp)) (hy (r', t) (by simp)) : r = r'),
      same_kinds (fun x h => hx x (by simp [h])) (fun y h => hy y (by simp [h])) h2]

/-- C40 in any layout: the trees of `C40_round_trip_partial` are read, without errors, from every text whose
tokens are their words, however the tokens are separated and whatever stands between, before and after them that is
not a token. Missing: as there. -/
theorem C40_any_layout_partial (L : Lib) (hL : Lawful L) (pre : List (List Byte)) (ts : List Tree)
    (hw : ∀ t ∈ ts, Writable L.arith t) (hlen : pre.length + (wordsList ts).length < 2^64)
    (s rest : List Byte) (ls : List (Rule × List Byte)) (h : Chunks s ls rest)
    (hs : (significant ls).map (·.2) = wordsList ts) :
    ∃ d, (∀ fuel, 2 * (wordsList ts).length + 1 ≤ fuel → parse L fuel (SymTab.empty.internAll pre).1 s = .ok d) ∧
      d.errors = [] ∧ ReadsList d.tab (asRead L) ts d.nodes ∧
      ∀ i name, (SymTab.empty.internAll pre).1.string i = .ok name → d.tab.string i = .ok name := by
  obtain ⟨d, h1, h2, h3, h4⟩ := C40_round_trip_partial L hL pre ts hw hlen
  have hwords : (kindsList L ts).map (·.2) = wordsList ts := kindsList_words (fun x _ => kinds_words x)
  obtain ⟨ls0, hls, htoks⟩ := lexemes_spaced (L := L) (kindsList L ts)
    (kindsList_word (fun x hx => kinds_word L x (hw x hx)))
  rw [hwords] at hls
  change Lexemes (textOf ts) ls0 [] at hls
  obtain ⟨toks', ht, hk⟩ := htoks 0
  have hsig : (significant ls0).map (·.2) = wordsList ts := by
    rw [← toks_texts ht, ← hwords, ← hk, List.map_map]; rfl
  have hc0 := lexemes_iff.mp hls
  have hsame : significant ls0 = significant ls :=
    same_kinds (fun x hx => chunks_preferred hc0 x ((List.mem_filter.mp hx).1))
      (fun x hx => chunks_preferred h x ((List.mem_filter.mp hx).1)) (by rw [hsig, hs])
  have alike : ∀ fuel, 2 * (wordsList ts).length + 1 ≤ fuel → ∃ d',
      parse L fuel (SymTab.empty.internAll pre).1 s = .ok d' ∧ d.nodes = d'.nodes ∧ d.tab = d'.tab ∧ d'.errors = [] := by
    intro fuel hf
    have := C122_same_tokens L fuel (SymTab.empty.internAll pre).1 (textOf ts) s [] rest ls0 ls hc0 h hsame
    rw [h1 fuel hf] at this
    cases hp : parse L fuel (SymTab.empty.internAll pre).1 s with
    | ok d' =>
      rw [hp] at this
      obtain ⟨a, b, c⟩ := this
      rw [h2] at c
      refine ⟨d', rfl, a, b, ?_⟩
      generalize d'.errors = es at c
      cases c; rfl
    | throw => rw [hp] at this; exact this.elim
    | trap => rw [hp] at this; exact this.elim
    | ub => rw [hp] at this; exact this.elim
    | fuel => rw [hp] at this; exact this.elim
  obtain ⟨d', hp, hn, ht', he⟩ := alike _ (Nat.le_refl _)
  refine ⟨d', fun fuel hf => parse_mono hp hf, he, by rw [← hn, ← ht']; exact h3, ?_⟩
  rw [← ht']; exact h4

/-- `,(a)` is `( a )` in another layout. -/
example : Chunks [44, 40, 97, 41] [(.whitespace, [44]), (.lparen, [40]), (.symbol, [97]), (.rparen, [41])] [] ∧
    (significant [(.whitespace, [44]), (.lparen, [40]), (.symbol, [97]), (.rparen, [41])]).map (·.2) =
      wordsList [.list [.sym [97]]] ∧ Writable demo.arith (.list [.sym [97]]) := by
  refine ⟨lexemes_iff.mp ?_, by simp [wordsList, words, significant, IsSkip], ?_⟩
  · have get : ∀ (s : List Byte) r n, (scan rules s).best = some (r, n) → Longest rules s r n := by
      intro s r n e
      have := (scan_spec rules s).1
      rwa [e] at this
    have d : NoMatch rules [] := by intro m q h1 h2; simp at h2; omega
    exact .step (n := 1) (get [44, 40, 97, 41] _ _ (by decide +kernel)) (.step (n := 1) (get [40, 97, 41] _ _ (by decide +kernel))
      (.step (n := 1) (get [97, 41] _ _ (by decide +kernel)) (.step (n := 1) (get [41] _ _ (by decide +kernel)) (.done d))))
  · have a : Writable demo.arith (.sym [97]) := .sym ⟨symbol_lang rfl, by decide, by decide, by decide⟩
    exact .list (by simpa using a)

end Ab.Edn.Layout
