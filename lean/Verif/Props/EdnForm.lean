import Verif.Proof.EdnForm
import Verif.Props.EdnParse
/-! C78: mistakes in the structure of an EDN text are reported. -/
namespace Ab.Edn

open Spec

/-- C78, on well-formed texts: parsing returns; the only errors are keys that are in their map already; at least as many
pairs are missing from the document as errors are reported, and the list of errors is empty exactly when every pair
written is in the document. -/
theorem C78_well_formed_partial (L : Lib) (hL : Lawful L) (tab : SymTab) (s : List Byte) (ts : List Token) (l : Lex) (n : Nat)
    (hl : lex L s = .ok (ts, l)) (hw : IsSeq (ts.map (·.kind)) n) :
    ∃ d, (∀ fuel, 2 * ts.length + 1 ≤ fuel → parse L fuel tab s = .ok d) ∧
      (∀ e ∈ d.errors, e.msg = "duplicate key discovered in map") ∧
      entriesList d.nodes + d.errors.length ≤ n ∧ (d.errors = [] ↔ entriesList d.nodes = n) := by
  obtain ⟨tab', ns, errs, h, hd, hc⟩ := topOk hL hw ts l.pos tab [] (2 * ts.length + 1) [] rfl (Nat.le_refl _)
  have hp : parse L (2 * ts.length + 1) tab s = .ok ⟨ns, errs, l.breaks, tab'⟩ := by
    unfold parse
    rw [hl]
    simp only [Outcome.ok_bind, h]
    simp
  refine ⟨_, fun fuel hf => parse_mono hp hf, hd, hc.le, ⟨hc.eq, fun he => ?_⟩⟩
  simp only at he
  have := hc.le
  have : errs.length = 0 := by omega
  exact List.length_eq_zero_iff.mp this

/-- C78, on all other texts: whatever document parsing returns, it comes with an error that is not about a key. (Missing:
that parsing returns a document at all, see `C78_negation` and C39.) -/
theorem C78_ill_formed_partial (L : Lib) (tab : SymTab) (s : List Byte) (ts : List Token) (l : Lex)
    (hl : lex L s = .ok (ts, l)) (hw : ¬ IsDocument ts) (fuel : Nat) (d : Doc) (hp : parse L fuel tab s = .ok d) :
    ∃ e ∈ d.errors, e.msg ≠ "duplicate key discovered in map" := by
  unfold parse at hp
  rw [hl] at hp
  simp only [Outcome.ok_bind] at hp
  obtain ⟨⟨s', ns⟩, h1, h2⟩ := Outcome.bind_eq_ok.mp hp
  injection h2 with h2; subst h2
  obtain ⟨errs, hlog, hd⟩ := top_form L _ _ _ _ _ h1
  simp only [List.nil_append] at hlog
  refine Classical.byContradiction fun hn => hw (hd ?_)
  intro e he
  refine Classical.byContradiction fun hne => hn ⟨e, ?_, hne⟩
  simp only [hlog]; exact he

/-- C78: the error list is empty exactly when the text is well formed and no pair has been dropped. -/
theorem C78_no_errors_iff_partial (L : Lib) (hL : Lawful L) (tab : SymTab) (s : List Byte) (ts : List Token) (l : Lex)
    (hl : lex L s = .ok (ts, l)) (fuel : Nat) (d : Doc) (hp : parse L fuel tab s = .ok d) :
    d.errors = [] ↔ IsSeq (ts.map (·.kind)) (entriesList d.nodes) := by
  have same : ∀ d', (∀ fuel, 2 * ts.length + 1 ≤ fuel → parse L fuel tab s = .ok d') → d' = d := by
    intro d' h
    have h1 := h (max fuel (2 * ts.length + 1)) (Nat.le_max_right _ _)
    have h2 := parse_mono hp (Nat.le_max_left fuel (2 * ts.length + 1))
    rw [h1] at h2
    injection h2
  constructor
  · intro he
    have hw : IsDocument ts := by
      refine Classical.byContradiction fun hw => ?_
      obtain ⟨e, hm, -⟩ := C78_ill_formed_partial L tab s ts l hl hw fuel d hp
      rw [he] at hm; cases hm
    obtain ⟨n, hn⟩ := hw
    obtain ⟨d', h1, -, -, h2⟩ := C78_well_formed_partial L hL tab s ts l n hl hn
    rw [same d' h1] at h2
    rw [h2.mp he]; exact hn
  · intro hn
    obtain ⟨d', h1, -, -, h2⟩ := C78_well_formed_partial L hL tab s ts l _ hl hn
    rw [same d' h1] at h2
    exact h2.mpr rfl

/-- C78 fails: `(}` is not well formed and yields an exception, `{` an endless loop, neither a document with errors. -/
theorem C78_negation (L : Lib) (hL : Lawful L) (tab : SymTab) :
    (∀ fuel d, parse L fuel tab [40, 125] ≠ .ok d) ∧ (∀ fuel d, parse L fuel tab [123] ≠ .ok d) := by
  constructor
  · intro fuel d h
    have h1 := parse_mono h (Nat.le_max_left fuel 6)
    rw [C39_negation_throws L hL tab _ (Nat.le_max_right fuel 6)] at h1
    cases h1
  · intro fuel d h
    rw [C39_negation L hL tab fuel] at h
    cases h

/-- `[{a 1 b (2)} c]` is well formed with two pairs. -/
example : ∃ ts l, lex demo [91, 123, 97, 32, 49, 32, 98, 32, 40, 50, 41, 125, 32, 99, 93] = .ok (ts, l) ∧
    IsSeq (ts.map (·.kind)) 2 :=
  ⟨_, _, rfl, .cons (a := _) (b := []) (.vec (ks := [.lbrace, .symbol, .integer 1#64, .symbol, .lparen, .integer 2#64,
      .rparen, .rbrace, .symbol]) (.cons (a := [.lbrace, .symbol, .integer 1#64, .symbol, .lparen, .integer 2#64,
      .rparen, .rbrace]) (b := [.symbol]) (.map (ks := [.symbol, .integer 1#64, .symbol, .lparen, .integer 2#64,
      .rparen]) (.cons (a := [.symbol]) (b := [.integer 1#64]) (c := [.symbol, .lparen, .integer 2#64, .rparen])
        (.atom rfl) (.atom rfl) (.cons (a := [.symbol]) (b := [.lparen, .integer 2#64, .rparen]) (c := []) (.atom rfl)
        (.list (ks := [.integer 2#64]) (.cons (a := [.integer 2#64]) (b := []) (.atom rfl) .nil)) .nil)))
      (.cons (a := [.symbol]) (b := []) (.atom rfl) .nil))) .nil⟩

/-- `{a 1 a 2}`: one error, one of two pairs kept; `(1]`: an error of another kind. -/
example : (match parse demo 30 SymTab.empty [123, 97, 32, 49, 32, 97, 32, 50, 125] with
      | .ok d => entriesList d.nodes == 1 && d.errors.map (·.msg) == ["duplicate key discovered in map"]
      | _ => false) = true ∧
    (match parse demo 30 SymTab.empty [40, 49, 93] with
      | .ok d => d.errors.map (·.msg) == ["Unexpected ']' terminating list"]
      | _ => false) = true := by
  decide +kernel

end Ab.Edn
