import Verif.Spec.Sexpr
/-! C90: the layout of S-expression output. -/
namespace Ab.Sexpr

open Spec.Layout

theorem inc_eq {d : Nat} (h : d ≤ 10) : inc d = up d := by unfold inc up; split <;> omega
theorem dec_eq (d : Nat) : dec d = down d := by unfold dec down; split <;> omega

theorem indentation_eq (d : Nat) : indentation d = List.replicate (2 * d) ' ' := by
  induction d with
  | zero => rfl
  | succ d ih =>
    rw [indentation, ih, show 2 * (d + 1) = 2 * d + 2 by omega, ← List.replicate_append_replicate]
    rfl

theorem renderRest_snoc (a : Ev) (l : List Ev) (e : Ev) :
    renderRest a (l ++ [e]) = renderRest a l ++ gap (l.getLastD a) e ++ shown e := by
  induction l generalizing a with
  | nil => simp [renderRest]
  | cons b l ih => simp only [List.cons_append, renderRest, ih]; cases l <;> simp [List.getLast?_cons]

theorem renderLine_snoc (d : Nat) (l : List Ev) (e : Ev) (h : l ≠ []) :
    renderLine d (l ++ [e]) = renderLine d l ++ gap (l.getLastD .fresh) e ++ shown e := by
  cases l with
  | nil => exact absurd rfl h
  | cons a l =>
    simp only [List.cons_append, renderLine, renderRest_snoc]
    cases l <;> simp [List.getLast?_cons]

/-- The formatter after `done` and a line `line` begun at level `d`. -/
structure At (f : Formatter) (done : List Char) (d : Nat) (line : List Ev) : Prop where
  buffer : f.buffer = done ++ renderLine d line
  fresh : f.fresh = true ↔ line = []
  space : line ≠ [] → (f.needsSpacing = true ↔ line.getLastD .fresh ≠ .start)
  level : line = [] → d = f.depth
  bound : f.depth ≤ 10

theorem At.spacing {f : Formatter} {done : List Char} {d : Nat} {line : List Ev} (h : At f done d line) (e : Ev) (he : e ≠ .stop) :
    f.spacing.buffer ++ shown e = done ++ renderLine d (line ++ [e]) := by
  unfold Formatter.spacing
  simp only
  cases line with
  | nil =>
    rw [if_pos (h.fresh.2 rfl), h.buffer, indentation_eq, ← h.level rfl]
    simp [renderLine, renderRest, he]
  | cons a l =>
    have hf : f.fresh = false := by
      cases hf : f.fresh with
      | false => rfl
      | true => have := h.fresh.1 hf; cases this
    rw [hf, renderLine_snoc _ _ _ (by simp), h.buffer]
    simp only [Bool.false_eq_true, if_false]
    have hs := h.space (by simp)
    cases hn : f.needsSpacing with
    | true => rw [if_pos rfl, gap, if_neg (by rw [not_or]; exact ⟨hs.1 hn, he⟩)]; simp
    | false =>
      have : List.getLastD (a :: l) .fresh = .start := by
        rcases Classical.em (List.getLastD (a :: l) .fresh = .start) with h | h
        · exact h
        · rw [hs.2 h] at hn; cases hn
      simp only [Bool.false_eq_true, if_false]
      rw [gap, if_pos (Or.inl this)]; simp

theorem getLastD_snoc (l : List Ev) (e a : Ev) : (l ++ [e]).getLastD a = e := by simp

theorem puts_layout (l : List Ev) {f : Formatter} {done : List Char} {d : Nat} {line : List Ev} (h : At f done d line) :
    (f.puts l).buffer = done ++ layout d line f.depth l := by
  induction l generalizing f done d line with
  | nil => exact h.buffer
  | cons e l ih =>
    show ((f.put e).puts l).buffer = _
    cases e with
    | start =>
      have h' : At (f.put .start) done d (line ++ [.start]) :=
        ⟨h.spacing .start (by simp), ⟨(fun hh => by cases hh), (fun hh => by simp at hh)⟩,
          fun _ => ⟨(fun hh => by cases hh), fun hh => by rw [getLastD_snoc] at hh; exact absurd rfl hh⟩,
          (fun hh => by simp at hh), by show inc f.depth ≤ 10; rw [inc_eq h.bound]; unfold up; omega⟩
      rw [ih h', layout]
      show _ = _ ++ layout d (line ++ [.start]) (up f.depth) l
      rw [← inc_eq h.bound]; rfl
    | text s =>
      have h' : At (f.put (.text s)) done d (line ++ [.text s]) :=
        ⟨h.spacing (.text s) (by simp), ⟨(fun hh => by cases hh), (fun hh => by simp at hh)⟩,
          fun _ => ⟨fun _ => by rw [getLastD_snoc]; simp, fun _ => rfl⟩,
          (fun hh => by simp at hh), h.bound⟩
      rw [ih h', layout]; rfl
    | stop =>
      have hb : (f.put .stop).buffer = done ++ renderLine d (line ++ [.stop]) := by
        show f.buffer ++ [')'] = _
        rw [h.buffer]
        cases line with
        | nil => simp [renderLine, renderRest, shown]
        | cons a l =>
          rw [renderLine_snoc _ _ _ (by simp), gap, if_pos (Or.inr rfl)]
          simp [shown]
      have h' : At (f.put .stop) done d (line ++ [.stop]) :=
        ⟨hb, ⟨(fun hh => by cases hh), (fun hh => by simp at hh)⟩,
          fun _ => ⟨fun _ => by rw [getLastD_snoc]; simp, fun _ => rfl⟩,
          (fun hh => by simp at hh), by
            show dec f.depth ≤ 10
            have := h.bound
            rw [dec_eq]; unfold down; omega⟩
      rw [ih h', layout, ← dec_eq]; rfl
    | fresh =>
      rw [layout]
      by_cases hl : line = []
      · have hf := h.fresh.2 hl
        have e : f.put .fresh = f := by show f.freshen = f; unfold Formatter.freshen; rw [if_pos hf]
        rw [e, ih h, hl, h.level hl]; simp
      · have hf : f.fresh = false := by
          cases hf : f.fresh with
          | false => rfl
          | true => exact absurd (h.fresh.1 hf) hl
        have e : f.put .fresh = { f with fresh := true, needsSpacing := false, buffer := f.buffer ++ ['\n'] } := by
          show f.freshen = _; unfold Formatter.freshen; rw [hf]; simp
        have h' : At (f.put .fresh) (done ++ renderLine d line ++ ['\n']) f.depth [] := by
          rw [e]
          exact ⟨by simp [h.buffer, renderLine], ⟨fun _ => rfl, fun _ => rfl⟩, fun hh => absurd rfl hh, fun _ => rfl, h.bound⟩
        rw [ih h', e, if_neg hl]; simp
    | indent =>
      have hb := h.bound
      have h' : At (f.put .indent) done (if line = [] then up f.depth else d) line := by
        refine ⟨?_, h.fresh, h.space, ?_, ?_⟩
        · show f.buffer = _
          split
          · rename_i hl; rw [h.buffer, hl]; rfl
          · exact h.buffer
        · intro hl; rw [if_pos hl, ← inc_eq hb]; rfl
        · show inc f.depth ≤ 10; rw [inc_eq hb]; unfold up; omega
      rw [ih h', layout, ← inc_eq hb]; rfl
    | dedent =>
      have hb := h.bound
      have h' : At (f.put .dedent) done (if line = [] then down f.depth else d) line := by
        refine ⟨?_, h.fresh, h.space, ?_, ?_⟩
        · show f.buffer = _
          split
          · rename_i hl; rw [h.buffer, hl]; rfl
          · exact h.buffer
        · intro hl; rw [if_pos hl, ← dec_eq]; rfl
        · show dec f.depth ≤ 10; rw [dec_eq]; unfold down; omega
      rw [ih h', layout, ← dec_eq]; rfl

theorem new_at : At Formatter.new [] 0 [] :=
  ⟨rfl, ⟨fun _ => rfl, fun _ => rfl⟩, fun h => absurd rfl h, fun _ => rfl, by decide⟩

/-- C90: whatever is sent to a new formatter, the output is laid out as specified: one space between things, none
inside parentheses, two spaces of indentation for each level, no empty lines. -/
theorem C90_layout (l : List Ev) : (Formatter.new.puts l).buffer = layout 0 [] 0 l := puts_layout l new_at

/-- C90, the level: while nesting stays within ten, the level of indentation is the number of lists and
indentations that have been opened and not closed. -/
theorem C90_level (l : List Ev) (h : Within 0 l) : ((Formatter.new.puts l).depth : Int) = opened l := by
  have key : ∀ (l : List Ev) (f : Formatter), f.depth ≤ 10 → Within f.depth l → ((f.puts l).depth : Int) = f.depth + opened l := by
    intro l
    induction l with
    | nil => intro f _ _; show (f.depth : Int) = _ + 0; omega
    | cons e l ih =>
      intro f hb hw
      show (((f.put e).puts l).depth : Int) = _
      cases e with
      | start =>
        have hd : (f.put .start).depth = f.depth + 1 := by show inc f.depth = _; unfold inc; rw [if_pos hw.1]
        rw [ih _ (by rw [hd]; have := hw.1; omega) (by rw [hd]; exact hw.2), hd, opened]; omega
      | indent =>
        have hd : (f.put .indent).depth = f.depth + 1 := by show inc f.depth = _; unfold inc; rw [if_pos hw.1]
        rw [ih _ (by rw [hd]; have := hw.1; omega) (by rw [hd]; exact hw.2), hd, opened]; omega
      | stop =>
        have h0 : 0 < f.depth := hw.1
        have hd : (f.put .stop).depth = f.depth - 1 := by show dec f.depth = _; unfold dec; rw [if_pos h0]
        rw [ih _ (by rw [hd]; omega) (by rw [hd]; exact hw.2), hd, opened]; omega
      | dedent =>
        have h0 : 0 < f.depth := hw.1
        have hd : (f.put .dedent).depth = f.depth - 1 := by show dec f.depth = _; unfold dec; rw [if_pos h0]
        rw [ih _ (by rw [hd]; omega) (by rw [hd]; exact hw.2), hd, opened]; omega
      | text s => exact ih (f.text s) hb hw
      | fresh =>
        have hd : (f.put .fresh).depth = f.depth := by show f.freshen.depth = _; unfold Formatter.freshen; split <;> rfl
        rw [ih _ (by rw [hd]; exact hb) (by rw [hd]; exact hw), hd]; rfl
  have := key l Formatter.new (by decide) h
  simpa [Formatter.new] using this

/-- No two line breaks follow each other in `t`, and it does not begin with one. -/
def NoEmptyLine (t : List Char) : Prop := t.head? ≠ some '\n' ∧ ∀ a b, t ≠ a ++ '\n' :: '\n' :: b

/-- No line of `t` ends in a space. -/
def NoTrailingSpace (t : List Char) : Prop := ∀ a b, t ≠ a ++ ' ' :: '\n' :: b

theorem noNewline_append {a b : List Char} (h : '\n' ∉ a) (h' : '\n' ∉ b) : '\n' ∉ a ++ b := by simp [h, h']

/-- Properties of a line made of words and parentheses. -/
theorem line_ends (d : Nat) (l : List Ev) (h : l ≠ []) (hs : ∀ s, .text s ∈ l → s ≠ [] ∧ '\n' ∉ s ∧ s.getLast? ≠ some ' ')
    (hv : ∀ e ∈ l, e ≠ .fresh ∧ e ≠ .indent ∧ e ≠ .dedent) :
    '\n' ∉ renderLine d l ∧ ∃ c, (renderLine d l).getLast? = some c ∧ c ≠ ' ' := by
  have one : ∀ e ∈ l, '\n' ∉ shown e ∧ ∃ c, (shown e).getLast? = some c ∧ c ≠ ' ' := by
    intro e he
    cases e with
    | start => exact ⟨by decide, _, rfl, by decide⟩
    | stop => exact ⟨by decide, _, rfl, by decide⟩
    | text s =>
      obtain ⟨h1, h2, h3⟩ := hs s he
      refine ⟨h2, ?_⟩
      show ∃ c, s.getLast? = some c ∧ c ≠ ' '
      cases hl : s.getLast? with
      | none => exact absurd (List.getLast?_eq_none_iff.1 hl) h1
      | some c => exact ⟨c, rfl, fun e => h3 (by rw [hl, e])⟩
    | fresh => exact absurd rfl (hv _ he).1
    | indent => exact absurd rfl (hv _ he).2.1
    | dedent => exact absurd rfl (hv _ he).2.2
  have gapn : ∀ a b, '\n' ∉ gap a b := by intro a b; unfold gap; split <;> decide
  have rest : ∀ (m : List Ev) (p : List Char) (a : Ev), (∀ e ∈ m, '\n' ∉ shown e ∧ ∃ c, (shown e).getLast? = some c ∧ c ≠ ' ') →
      '\n' ∉ p → (∃ c, p.getLast? = some c ∧ c ≠ ' ') →
      '\n' ∉ p ++ renderRest a m ∧ ∃ c, (p ++ renderRest a m).getLast? = some c ∧ c ≠ ' ' := by
    intro m
    induction m with
    | nil => intro p a _ h1 h2; simpa [renderRest] using ⟨h1, h2⟩
    | cons b m ih =>
      intro p a hm h1 h2
      obtain ⟨h3, c, h4, h5⟩ := hm b (by simp)
      have := ih (p ++ (gap a b ++ shown b)) b (fun e he => hm e (by simp [he]))
        (noNewline_append h1 (noNewline_append (gapn a b) h3)) ⟨c, by simp [List.getLast?_append, h4], h5⟩
      simpa [renderRest] using this
  cases l with
  | nil => exact absurd rfl h
  | cons e l =>
    obtain ⟨h3, c, h4, h5⟩ := one e (by simp)
    have sp : '\n' ∉ (if e = .stop then [] else List.replicate (2 * d) ' ') := by
      split
      · simp
      · intro hh; have := List.eq_of_mem_replicate hh; revert this; decide
    have := rest l ((if e = .stop then [] else List.replicate (2 * d) ' ') ++ shown e) e (fun x hx => one x (by simp [hx]))
      (noNewline_append sp h3) ⟨c, by simp only [List.getLast?_append, h4]; rfl, h5⟩
    simpa [renderLine] using this

/-- Between the start or a line break and a line break there is text not ending in a space. -/
inductive Lines : List Char → Prop
  | last {a} : '\n' ∉ a → Lines a
  | more {a b c} : '\n' ∉ a → a.getLast? = some c → c ≠ ' ' → Lines b → Lines (a ++ '\n' :: b)

theorem layout_lines (l : List Ev) (hs : ∀ s, .text s ∈ l → s ≠ [] ∧ '\n' ∉ s ∧ s.getLast? ≠ some ' ') (d k : Nat) (line : List Ev)
    (hl : ∀ s, .text s ∈ line → s ≠ [] ∧ '\n' ∉ s ∧ s.getLast? ≠ some ' ')
    (hv : ∀ e ∈ line, e ≠ .fresh ∧ e ≠ .indent ∧ e ≠ .dedent) : Lines (layout d line k l) := by
  induction l generalizing d k line with
  | nil =>
    rw [layout]
    by_cases h : line = []
    · subst h; exact .last (by simp [renderLine])
    · exact .last (line_ends d line h hl hv).1
  | cons e l ih =>
    have ih' := ih (fun s hx => hs s (by simp [hx]))
    cases e with
    | fresh =>
      rw [layout]
      split
      · exact ih' _ _ _ (by simp) (by simp)
      · rename_i h
        obtain ⟨h1, c, h2, h3⟩ := line_ends d line h hl hv
        rw [List.append_assoc]
        exact .more h1 h2 h3 (ih' _ _ _ (by simp) (by simp))
    | indent => rw [layout]; exact ih' _ _ _ hl hv
    | dedent => rw [layout]; exact ih' _ _ _ hl hv
    | text s =>
      rw [layout]
      refine ih' _ _ _ ?_ ?_
      · intro x hx
        rcases List.mem_append.1 hx with hx | hx
        · exact hl x hx
        · simp at hx; subst hx; exact hs _ (by simp)
      · intro x hx
        rcases List.mem_append.1 hx with hx | hx
        · exact hv x hx
        · simp at hx; subst hx; simp
    | start =>
      rw [layout]
      refine ih' _ _ _ ?_ ?_
      · intro x hx
        rcases List.mem_append.1 hx with hx | hx
        · exact hl x hx
        · simp at hx
      · intro x hx
        rcases List.mem_append.1 hx with hx | hx
        · exact hv x hx
        · simp at hx; subst hx; simp
    | stop =>
      rw [layout]
      refine ih' _ _ _ ?_ ?_
      · intro x hx
        rcases List.mem_append.1 hx with hx | hx
        · exact hl x hx
        · simp at hx
      · intro x hx
        rcases List.mem_append.1 hx with hx | hx
        · exact hv x hx
        · simp at hx; subst hx; simp

theorem split_newline {a b x y : List Char} (ha : '\n' ∉ a) (h : a ++ '\n' :: b = x ++ '\n' :: y) :
    (x = a ∧ y = b) ∨ ∃ z, x = a ++ '\n' :: z ∧ b = z ++ '\n' :: y := by
  induction a generalizing x with
  | nil =>
    cases x with
    | nil => simp at h; exact Or.inl ⟨rfl, h.symm⟩
    | cons c x => simp at h; obtain ⟨rfl, h⟩ := h; exact Or.inr ⟨x, rfl, h⟩
  | cons c a ih =>
    cases x with
    | nil => simp at h; exact absurd h.1.symm (fun e => ha (by rw [e]; simp))
    | cons e x =>
      simp at h
      obtain ⟨rfl, h⟩ := h
      rcases ih (fun e => ha (by simp [e])) h with ⟨rfl, rfl⟩ | ⟨z, rfl, rfl⟩
      · exact Or.inl ⟨rfl, rfl⟩
      · exact Or.inr ⟨z, rfl, rfl⟩

theorem lines_tidy {t : List Char} (h : Lines t) :
    t.head? ≠ some '\n' ∧ ∀ x y, t = x ++ '\n' :: y → (∃ c, x.getLast? = some c ∧ c ≠ ' ' ∧ c ≠ '\n') ∧ y.head? ≠ some '\n' := by
  induction h with
  | last ha =>
    refine ⟨fun h => ha ?_, fun x y e => absurd (by rw [e]; simp) ha⟩
    exact List.mem_of_mem_head? (by simpa using h)
  | @more a b c ha hc hne _ ih =>
    have hca : c ∈ a := List.mem_of_getLast? hc
    refine ⟨?_, fun x y e => ?_⟩
    · cases a with
      | nil => simp at hc
      | cons d a => simp; exact fun e => ha (by simp [e])
    · rcases split_newline ha e with ⟨rfl, rfl⟩ | ⟨z, rfl, rfl⟩
      · exact ⟨⟨c, hc, hne, fun e => ha (by rw [← e]; exact hca)⟩, ih.1⟩
      · obtain ⟨⟨c', h1, h2⟩, h3⟩ := ih.2 z y rfl
        refine ⟨⟨c', ?_, h2⟩, h3⟩
        cases z with
        | nil => simp at h1
        | cons q z => simp [List.getLast?_append, h1]

/-- C90, tidiness: if no text sent is empty, contains a line break or ends in a space, then no line of the output is
empty and none ends in a space. -/
theorem C90_tidy (l : List Ev) (h : ∀ s, .text s ∈ l → s ≠ [] ∧ '\n' ∉ s ∧ s.getLast? ≠ some ' ') :
    NoEmptyLine (Formatter.new.puts l).buffer ∧ NoTrailingSpace (Formatter.new.puts l).buffer := by
  rw [C90_layout]
  obtain ⟨h1, h2⟩ := lines_tidy (layout_lines l h 0 0 [] (by simp) (by simp))
  refine ⟨⟨h1, fun a b e => ?_⟩, fun a b e => ?_⟩
  · exact (h2 a ('\n' :: b) e).2 rfl
  · obtain ⟨⟨c, h3, h4, -⟩, -⟩ := h2 (a ++ [' ']) b (by simpa using e)
    simp at h3
    exact h4 h3.symm

/-- `(a (b)⏎  c⏎    d⏎)`: line breaks in a row are one, an indentation counts from the next line. -/
example : (Formatter.new.puts [.fresh, .start, .text ['a'], .start, .text ['b'], .stop, .fresh, .fresh, .text ['c'], .indent, .fresh,
      .text ['d'], .dedent, .fresh, .stop, .text ['e']]).buffer = "(a (b)\n  c\n    d\n) e".toList ∧
    layout 0 [] 0 [.fresh, .start, .text ['a'], .start, .text ['b'], .stop, .fresh, .fresh, .text ['c'], .indent, .fresh,
      .text ['d'], .dedent, .fresh, .stop, .text ['e']] = "(a (b)\n  c\n    d\n) e".toList ∧
    Within 0 [.fresh, .start, .text ['a'], .start, .text ['b'], .stop, .fresh, .fresh, .text ['c'], .indent, .fresh,
      .text ['d'], .dedent, .fresh, .stop, .text ['e']] := by
  refine ⟨by decide +kernel, by decide +kernel, ?_⟩
  simp [Within]

end Ab.Sexpr
