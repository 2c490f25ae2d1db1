import Verif.Proof.EdnEqual
import Verif.Props.EdnDouble
/-! C125: nodes read from text compare as the data written. -/
namespace Ab.Edn

open Spec Re

theorem F2.append {R : α → β → Prop} {xs xs' : List α} {ys ys' : List β} (h : F2 R xs ys) (h' : F2 R xs' ys') :
    F2 R (xs ++ xs') (ys ++ ys') := by
  induction h with
  | nil => exact h'
  | cons h _ ih => exact .cons h ih

theorem F2.get {R : α → β → Prop} {xs : List α} {ys : List β} (h : F2 R xs ys) :
    ∀ {i : Nat} {x y}, xs[i]? = some x → ys[i]? = some y → R x y := by
  induction h with
  | nil => intro i x y hx; simp at hx
  | cons h _ ih =>
    intro i x y hx hy
    cases i with
    | zero => simp at hx hy; subst hx; subst hy; exact h
    | succ i => simp at hx hy; exact ih hx hy

/-- C125: read a text of the data `ts`, in any layout, and then, with the symbols kept, a text of the data `ts'`.
Both are read without errors, one node for each datum; and any two of these nodes, of the same text or of the two,
that compare equal were written as the same data: equal up to the order of map entries and different ways to write a number. If the
first has no map of two or more entries inside a map key and no real that is read as a NaN, they compare equal whenever the data
are the same. Missing: larger maps inside keys and NaNs, for which it is false (below); strings that end in a backslash (C40). -/
theorem C125_equal_texts_partial (L : Lib) (hL : Lawful L) (pre : List (List Byte)) (ts ts' : List Tree)
    (hw : ∀ t ∈ ts, Writable L.arith t) (hw' : ∀ t ∈ ts', Writable L.arith t)
    (hlen : pre.length + (wordsList ts).length + (wordsList ts').length < 2^64)
    (s rest s' rest' : List Byte) (ls ls' : List (Rule × List Byte))
    (h : Chunks s ls rest) (hs : (significant ls).map (·.2) = wordsList ts)
    (h' : Chunks s' ls' rest') (hs' : (significant ls').map (·.2) = wordsList ts') :
    ∃ d d', (∀ fuel, 2 * (wordsList ts).length + 1 ≤ fuel → parse L fuel (SymTab.empty.internAll pre).1 s = .ok d) ∧
      (∀ fuel, 2 * (wordsList ts').length + 1 ≤ fuel → parse L fuel d.tab s' = .ok d') ∧
      d.errors = [] ∧ d'.errors = [] ∧ d.nodes.length = ts.length ∧ d'.nodes.length = ts'.length ∧
      ∀ (i j : Nat) (t u : Tree) (n m : Node), (ts ++ ts')[i]? = some t → (ts ++ ts')[j]? = some u →
        (d.nodes ++ d'.nodes)[i]? = some n → (d.nodes ++ d'.nodes)[j]? = some m →
        (Node.eq L n m = true → TSame L.arith t u) ∧
        (PlainKeys t → NoNaNs L.arith t → TSame L.arith t u → Node.eq L n m = true) := by
  obtain ⟨is, hpre, -, -⟩ := internAll_spec pre [] List.nodup_nil (by simp; omega)
  have hpre' : (SymTab.empty.internAll pre).1 = tabOf (namesAfter [] pre) := congrArg Prod.fst hpre
  have hnl := namesAfter_length [] pre
  simp only [List.length_nil, Nat.zero_add] at hnl
  obtain ⟨d, names, a1, a2, a3, a4, a5, a6, a7, a8⟩ := read_layout hL (namesAfter_nodup List.nodup_nil pre) hw
    (by omega) h hs
  obtain ⟨d', names', b1, b2, b3, b4, b5, b6, b7, b8⟩ := read_layout hL a4 hw' (by omega) h' hs'
  have hl : names'.length < 2^64 := by omega
  obtain ⟨m, hm⟩ := b5
  have a7' : ReadsList (tabOf names') (asRead L) ts d.nodes := by
    rw [readsList_iff] at a7 ⊢
    refine a7.mono (fun t _ n _ hr => reads_mono ?_ t n hr)
    rw [hm]; rw [hm] at hl
    exact fun i x => string_mono hl i x
  refine ⟨d, d', by rw [hpre']; exact a1, by rw [a3]; exact b1, a2, b2, (readsList_iff.mp a7).length.symm,
    (readsList_iff.mp b7).length.symm, ?_⟩
  intro i j t u n k hi hj hn hk
  have all := (readsList_iff.mp a7').append (readsList_iff.mp b7)
  have wr : ∀ t ∈ ts ++ ts', Writable L.arith t := fun t ht => by
    rcases List.mem_append.mp ht with ht | ht
    · exact hw t ht
    · exact hw' t ht
  have bt : ∀ n ∈ d.nodes ++ d'.nodes, Built L n := fun n hn => by
    rcases List.mem_append.mp hn with hn | hn
    · exact a8 n hn
    · exact b8 n hn
  have rt := all.get hi hn
  have ru := all.get hj hk
  have wn := built_wf hL (bt n (List.mem_of_getElem? hn))
  have wk := built_wf hL (bt k (List.mem_of_getElem? hk))
  exact ⟨fun he => reads_same t u n k (wr t (List.mem_of_getElem? hi)) (wr u (List.mem_of_getElem? hj)) rt ru
      (eq_same n k wn wk he),
    fun hp hr he => same_eq hL n k wn wk (reads_nanFree rt hr) (reads_smallKeys rt hp)
      (same_reads (string_inj b4 hl) t u n k (wr t (List.mem_of_getElem? hi)) (wr u (List.mem_of_getElem? hj)) rt ru he)⟩

/-- `{a 0.7, 2 a}` and `{2 a, a 0.7}`: the same data, without maps in keys and NaNs, and data the theorem is about. -/
example : (∀ t ∈ [Tree.map [(.sym [97], .real (ascii "0.7")), (.int 2, .sym [97])], .map [(.int 2, .sym [97]), (.sym [97], .real (ascii "0.7"))]],
      Writable demo.arith t ∧ NoNaNs demo.arith t ∧ PlainKeys t) ∧
    TSame demo.arith (.map [(.sym [97], .real (ascii "0.7")), (.int 2, .sym [97])]) (.map [(.int 2, .sym [97]), (.sym [97], .real (ascii "0.7"))]) ∧
    ¬ TSame demo.arith (.map [(.sym [97], .int 1)]) (.map [(.int 1, .sym [97])]) := by
  have a : Writable demo.arith (.sym [97]) := .sym ⟨symbol_lang rfl, by decide, by decide, by decide⟩
  have r : Writable demo.arith (.real (ascii "0.7")) := .real realText_seven (by decide)
  have i2 : Writable demo.arith (.int 2) := .int (by decide)
  have rr : SameReal demo.arith (ascii "0.7") (ascii "0.7") := ⟨_, _, _, _, _, _, _, _, realText_seven, realText_seven, Or.inl rfl⟩
  have pk : ∀ (es : List (Tree × Tree)), (∀ e ∈ es, (e.1 = .sym [97] ∨ e.1 = .int 2) ∧ (e.2 = .sym [97] ∨ e.2 = .real (ascii "0.7"))) →
      PlainKeys (.map es) := by
    intro es hes gs e fs hg he hf
    cases hg with
    | refl => rcases (hes e he).1 with h | h <;> rw [h] at hf <;> cases hf
    | key he' hs => rcases (hes _ he').1 with h | h <;> rw [h] at hs <;> cases hs
    | val he' hs => rcases (hes _ he').2 with h | h <;> rw [h] at hs <;> cases hs
  have nn : ∀ (es : List (Tree × Tree)), (∀ e ∈ es, (e.1 = .sym [97] ∨ e.1 = .int 2) ∧ (e.2 = .sym [97] ∨ e.2 = .real (ascii "0.7"))) →
      NoNaNs demo.arith (.map es) := by
    intro es hes w neg ints frac ex h ht
    have : w = ascii "0.7" := by
      cases h with
      | key he' hs => rcases (hes _ he').1 with h | h <;> rw [h] at hs <;> cases hs
      | val he' hs =>
        rcases (hes _ he').2 with h | h <;> rw [h] at hs
        · cases hs
        · cases hs; rfl
    subst this
    rw [real_unique realText_seven (by decide) ht]
    decide +kernel
  refine ⟨?_, .map (.cons (.sym _) (.real rr) (.cons (.int _) (.sym _) .nil)) (.swap _ _ _), ?_⟩
  · intro t ht
    simp only [List.mem_cons, List.not_mem_nil, or_false] at ht
    rcases ht with rfl | rfl
    · exact ⟨.map (by simp [i2]; exact a) (by simp [r]; exact a) (by simp; intro h; cases h), nn _ (by simp), pk _ (by simp)⟩
    · exact ⟨.map (by simp [i2]; exact a) (by simp [r]; exact a) (by simp; intro h; cases h), nn _ (by simp), pk _ (by simp)⟩
  · intro h
    cases h with
    | @map _ _ gs hs hp =>
      cases hs with
      | cons h1 h2 h3 =>
        cases h3
        have := List.singleton_perm.mp hp
        injection this with e _
        injection e with e1 e2
        subst e1
        cases h1

/-- `{{1 2, 3 4} nil}`. -/
def keyTree : Tree := .map [(.map [(.int 1, .int 2), (.int 3, .int 4)], .nil)]
/-- `{{3 4, 1 2} nil}`. -/
def keyTree' : Tree := .map [(.map [(.int 3, .int 4), (.int 1, .int 2)], .nil)]
/-- `{ { 1 2 3 4 } nil }`. -/
def keyText : List Byte := [123, 32, 123, 32, 49, 32, 50, 32, 51, 32, 52, 32, 125, 32, 110, 105, 108, 32, 125]
/-- `{ { 3 4 1 2 } nil }`. -/
def keyText' : List Byte := [123, 32, 123, 32, 51, 32, 52, 32, 49, 32, 50, 32, 125, 32, 110, 105, 108, 32, 125]

def compared (L : Lib) (fuel : Nat) (s s' : List Byte) : Option Bool :=
  match parse L fuel SymTab.empty s with
  | .ok d => match parse L fuel d.tab s' with
    | .ok d' => match d.nodes, d.errors, d'.nodes, d'.errors with
      | [n], [], [n'], [] => some (Node.eq L n n')
      | _, _, _, _ => none
    | _ => none
  | _ => none

/-- C125 fails: with a map of two entries as a key, two texts of the same data are read as nodes that compare
different. -/
theorem C125_negation :
    Lawful demo ∧ Writable demo.arith keyTree ∧ Writable demo.arith keyTree' ∧ TSame demo.arith keyTree keyTree' ∧
    ∃ d d' n n', parse demo 30 SymTab.empty (textOf [keyTree]) = .ok d ∧ parse demo 30 d.tab (textOf [keyTree']) = .ok d' ∧
      d.errors = [] ∧ d'.errors = [] ∧ d.nodes = [n] ∧ d'.nodes = [n'] ∧ Node.eq demo n n' = false := by
  have i : ∀ v : Int, v.natAbs < 2^63 → Writable demo.arith (.int v) := fun v h => .int h
  refine ⟨demo_lawful, ?_, ?_, ?_, ?_⟩
  · have m : Writable demo.arith (.map [(.int 1, .int 2), (.int 3, .int 4)]) :=
      .map (by simp; exact ⟨i 1 (by decide), i 3 (by decide)⟩) (by simp; exact ⟨i 2 (by decide), i 4 (by decide)⟩)
        (by simp; intro h; cases h)
    exact .map (by simpa using m) (by simp; exact .nil) (by simp)
  · have m : Writable demo.arith (.map [(.int 3, .int 4), (.int 1, .int 2)]) :=
      .map (by simp; exact ⟨i 3 (by decide), i 1 (by decide)⟩) (by simp; exact ⟨i 4 (by decide), i 2 (by decide)⟩)
        (by simp; intro h; cases h)
    exact .map (by simpa using m) (by simp; exact .nil) (by simp)
  · exact .map (.cons (.map (.cons (.int _) (.int _) (.cons (.int _) (.int _) .nil)) (.swap _ _ _)) .nil .nil) (.refl _)
  · rw [show textOf [keyTree] = keyText by
        simp [textOf, keyTree, keyText, wordsList, words, wordsEntries, wordsEntry, spaced, decimal, decimalNat],
      show textOf [keyTree'] = keyText' by
        simp [textOf, keyTree', keyText', wordsList, words, wordsEntries, wordsEntry, spaced, decimal, decimalNat]]
    have key : compared demo 30 keyText keyText' = some false := by decide +kernel
    unfold compared at key
    split at key
    · rename_i d hd
      split at key
      · rename_i d' hd'
        split at key
        · rename_i n n' h1 h2 h3 h4
          exact ⟨d, d', n, n', hd, hd', h2, h4, h1, h3, by injection key⟩
        · cases key
      · cases key
    · cases key

/-- C125 fails for NaNs: with an arithmetic of IEEE doubles the text `0e309` denotes zero and is read as a node that differs
from itself. -/
theorem C125_nan_negation (L : Lib) (hL : Lawful L) (hA : Ieee L.arith) :
    Writable L.arith (.real (ascii "0e309")) ∧ TSame L.arith (.real (ascii "0e309")) (.real (ascii "0e309")) ∧
    ∃ d n, (∀ fuel, 3 ≤ fuel → parse L fuel SymTab.empty (ascii "0e309") = .ok d) ∧ d.errors = [] ∧ d.nodes = [n] ∧
      Node.eq L n n = false := by
  have hw : Writable L.arith (.real (ascii "0e309")) := .real realText_0e309 (by decide)
  refine ⟨hw, .real ⟨_, _, _, _, _, _, _, _, realText_0e309, realText_0e309, Or.inl rfl⟩, ?_⟩
  obtain ⟨d, h1, h2, h3, -⟩ := C40_round_trip_partial L hL [] [.real (ascii "0e309")] (by simpa using hw)
    (by simp [wordsList, words])
  have ht : textOf [.real (ascii "0e309")] = ascii "0e309" := by simp [textOf, wordsList, words, spaced]
  rw [ht] at h1
  obtain ⟨n, hn, hr⟩ : ∃ n, d.nodes = [n] ∧ Reads d.tab (asRead L) (.real (ascii "0e309")) n := by
    generalize d.nodes = ns at h3
    cases h3 with | cons h h' => cases h' with | nil => exact ⟨_, rfl, h⟩
  refine ⟨d, n, fun fuel hf => h1 fuel (by simpa [wordsList, words] using hf), h2, hn, ?_⟩
  cases hr with
  | real hr =>
    obtain ⟨neg, ints, frac, ex, hr, rfl⟩ := hr
    obtain ⟨v, e1, e2⟩ := C100_zero_is_nan hA realText_0e309 (by decide) (by decide) (by decide) (by decide)
    rw [parseReal_spec _ realText_0e309, if_pos (by decide)] at e1
    injection e1 with e1
    have : ¬ (Node.eq L (.real (realIn L.arith neg ints frac ex)) (.real (realIn L.arith neg ints frac ex)) = true) := by
      rw [C37_reals]
      intro h
      refine h.2 ?_
      rw [real_unique realText_0e309 (by decide) hr, e1]
      exact e2
    simpa using this

/-- `{0.7 nil, 1 nil}`: keys may be reals. -/
example : Writable demo.arith (.map [(.real (ascii "0.7"), .nil), (.int 1, .nil)]) := by
  refine .map ?_ ?_ ?_
  · simp only [List.mem_cons, List.not_mem_nil, or_false, forall_eq_or_imp, forall_eq]
    exact ⟨.real realText_seven (by decide), .int (by decide)⟩
  · simp only [List.mem_cons, List.not_mem_nil, or_false, forall_eq_or_imp, forall_eq]
    exact ⟨.nil, .nil⟩
  · simp; intro h; cases h

/-- There is such an arithmetic, and a library that uses it. -/
example : Lawful { demo with arith := toyArith } ∧ Ieee toyArith :=
  ⟨⟨demo_lawful.place_perm, demo_lawful.hash_double⟩, toy_ieee⟩

end Ab.Edn
