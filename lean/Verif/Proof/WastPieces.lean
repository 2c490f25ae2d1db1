import Verif.Proof.Wast
/-! Lexing in pieces is lexing at once, as long as no token straddles two pieces: a simulation. -/
namespace Ab.Wast
open Spec.Wast

/-- Length of the pieces before piece `k`. -/
def base (text : Nat → List Char) : Nat → Nat
  | 0 => 0
  | k + 1 => base text k + (text k).length

/-- Where a pointer into a piece is in the whole text. -/
def glob (text : Nat → List Char) (p : Ptr) : Ptr := ⟨0, base text p.buf + p.idx⟩

def globTok (text : Nat → List Char) (t : Token) : Token := { t with first := glob text t.first, last := glob text t.last }

def globL (text : Nat → List Char) (s : Lexer) : Lexer :=
  { s with ts := s.ts.map (glob text), output := s.output.map (globTok text) }

/-- The pieces are what the whole text consists of. -/
def Whole (text : Nat → List Char) (whole : List Char) : Prop :=
  ∀ k i j, i ≤ j → j ≤ (text k).length → (text k).length ≠ 0 →
    (whole.drop (base text k + i)).take (j - i) = ((text k).drop i).take (j - i)

structure TokOk (text : Nat → List Char) (t : Token) : Prop where
  buf : t.first.buf = t.last.buf
  le : t.first.idx ≤ t.last.idx
  len : t.last.idx ≤ (text t.last.buf).length
  pos : (text t.last.buf).length ≠ 0

/-- The token being read starts in the current piece. -/
structure Inv (text : Nat → List Char) (k i : Nat) (s : Lexer) : Prop where
  cur : s.cs = .name ∨ s.cs = .dollar ∨ s.cs = .ident → ∃ j, s.ts = some ⟨k, j⟩ ∧ j ≤ i
  toks : ∀ t ∈ s.output, TokOk text t

theorem track_ok {s s' : Lexer} {c : Char} (h : track s c = .ok s') :
    ∃ l, s' = { s with location := l } ∧ ∀ t : Lexer, t.location = s.location → track t c = .ok { t with location := l } := by
  unfold track at h
  obtain ⟨a, ha, h⟩ := Outcome.bind_eq_ok.1 h
  obtain ⟨b, hb, h⟩ := Outcome.bind_eq_ok.1 h
  by_cases hc : c = '\n'
  · rw [if_pos hc] at h
    obtain ⟨d, hd, h⟩ := Outcome.bind_eq_ok.1 h
    injection h with h
    refine ⟨_, h.symm, ?_⟩
    intro t ht
    unfold track
    rw [ht, ha, hb]
    simp only [Outcome.ok_bind]
    rw [if_pos hc, hd]
    rfl
  · rw [if_neg hc] at h
    injection h with h
    refine ⟨_, h.symm, ?_⟩
    intro t ht
    unfold track
    rw [ht, ha, hb]
    simp only [Outcome.ok_bind]
    rw [if_neg hc]

section
variable {text : Nat → List Char} {whole : List Char}

/-- The same step of both. -/
def Sim (text : Nat → List Char) (k i : Nat) (x1 x2 : Outcome Lexer) : Prop :=
  ∀ s1, x1 = .ok s1 → ∃ s2, x2 = .ok s2 ∧ s1 = globL text s2 ∧ Inv text k i s2

theorem sim_bind {k i k' i' : Nat} {x1 x2 : Outcome Lexer} {f1 f2 : Lexer → Outcome Lexer} (h : Sim text k i x1 x2)
    (hf : ∀ s, Inv text k i s → Sim text k' i' (f1 (globL text s)) (f2 s)) : Sim text k' i' (x1 >>= f1) (x2 >>= f2) := by
  intro s1 h1
  obtain ⟨a, ha, hb⟩ := Outcome.bind_eq_ok.1 h1
  obtain ⟨b, e, rfl, hi⟩ := h a ha
  obtain ⟨s2, e2, r⟩ := hf b hi s1 hb
  exact ⟨s2, by rw [e]; exact e2, r⟩

theorem sim_ok {k i : Nat} {s : Lexer} (h : Inv text k i s) : Sim text k i (.ok (globL text s)) (.ok s) := by
  intro s1 h1
  injection h1 with h1
  exact ⟨s, rfl, h1.symm, h⟩

/-- After tracking: any continuation that keeps the invariant. -/
theorem sim_track {k i : Nat} {s : Lexer} {c : Char} {f1 f2 : Lexer → Outcome Lexer}
    (hf : ∀ l, Sim text k i (f1 (globL text { s with location := l })) (f2 { s with location := l })) :
    Sim text k i (track (globL text s) c >>= f1) (track s c >>= f2) := by
  intro s1 h1
  obtain ⟨a, ha, hb⟩ := Outcome.bind_eq_ok.1 h1
  obtain ⟨l, rfl, ht⟩ := track_ok ha
  rw [ht s rfl]
  exact hf l s1 hb

theorem sim_track' {k i : Nat} {s : Lexer} {c : Char}
    (hf : ∀ l, Inv text k i { s with location := l }) :
    Sim text k i (track (globL text s) c) (track s c) := by
  intro s1 h1
  obtain ⟨l, rfl, ht⟩ := track_ok h1
  exact ⟨_, ht s rfl, rfl, hf l⟩

theorem view_glob (hw : Whole text whole) {k i j : Nat} (hij : j ≤ i) (hi : i ≤ (text k).length) (hp : (text k).length ≠ 0) :
    view (fun _ => whole) (some (glob text ⟨k, j⟩)) (glob text ⟨k, i⟩) =
      (do let (t, v) ← view text (some ⟨k, j⟩) ⟨k, i⟩; .ok (glob text t, v)) := by
  unfold view
  simp only [if_true, glob, Outcome.ok_bind]
  rw [show base text k + i - (base text k + j) = i - j from by omega, hw k j i hij hi hp]

theorem inv_emit {k i : Nat} {s : Lexer} {kd : Kind} {j i' : Nat} (h : ∀ t ∈ s.output, TokOk text t) (hj : j ≤ i') (hi : i' ≤ (text k).length)
    (hp : (text k).length ≠ 0) : Inv text k i (restart (emit s kd ⟨k, j⟩ ⟨k, i'⟩)) := by
  constructor
  · rintro (e | e | e) <;> cases e
  · intro t ht
    simp only [restart, emit, List.mem_append, List.mem_cons, List.not_mem_nil, or_false] at ht
    rcases ht with ht | rfl
    · exact h t ht
    · exact ⟨rfl, hj, hi, hp⟩

theorem globL_restart_emit (s : Lexer) (kd : Kind) (a b : Ptr) :
    restart (emit (globL text s) kd (glob text a) (glob text b)) = globL text (restart (emit s kd a b)) := by
  simp [restart, emit, globL, globTok]

theorem globL_print (s : Lexer) (x : List Char) : print (globL text s) x = globL text (print s x) := rfl

theorem sim_finishName (hw : Whole text whole) {k i : Nat} {s : Lexer} (h : Inv text k i s) (hcs : s.cs = .name)
    (hi : i ≤ (text k).length) (hp : (text k).length ≠ 0) (i' : Nat) :
    Sim text k i' (finishName (fun _ => whole) (globL text s) (glob text ⟨k, i⟩)) (finishName text s ⟨k, i⟩) := by
  obtain ⟨j, hj, hji⟩ := h.cur (Or.inl hcs)
  intro s1 h1
  unfold finishName at h1
  rw [show (globL text s).ts = some (glob text ⟨k, j⟩) from by simp [globL, hj], view_glob hw hji hi hp] at h1
  unfold finishName
  rw [hj]
  unfold view at h1 ⊢
  simp only [if_true, Outcome.ok_bind] at h1 ⊢
  rw [globL_print, globL_restart_emit] at h1
  injection h1 with h1
  exact ⟨_, rfl, h1.symm, inv_emit h.toks hji hi hp⟩

theorem sim_finishIdent (hw : Whole text whole) {k i : Nat} {s : Lexer} (h : Inv text k i s) (hcs : s.cs = .ident)
    (hi : i ≤ (text k).length) (hp : (text k).length ≠ 0) (i' : Nat) :
    Sim text k i' (finishIdent (fun _ => whole) (globL text s) (glob text ⟨k, i⟩)) (finishIdent text s ⟨k, i⟩) := by
  obtain ⟨j, hj, hji⟩ := h.cur (Or.inr (Or.inr hcs))
  intro s1 h1
  unfold finishIdent at h1
  rw [show (globL text s).ts = some (glob text ⟨k, j⟩) from by simp [globL, hj], view_glob hw hji hi hp] at h1
  unfold finishIdent
  rw [hj]
  unfold view at h1 ⊢
  simp only [if_true, Outcome.ok_bind] at h1 ⊢
  rw [globL_print, globL_restart_emit] at h1
  injection h1 with h1
  exact ⟨_, rfl, h1.symm, inv_emit h.toks hji hi hp⟩

theorem inv_same {k i i' : Nat} {s t : Lexer} (h : Inv text k i s) (hi : i ≤ i') (h1 : t.cs = s.cs ∨ t.cs = .ident ∧ s.cs = .dollar) (h2 : t.ts = s.ts) (h3 : t.output = s.output) :
    Inv text k i' t := by
  constructor
  · intro hc
    rcases h1 with h1 | ⟨h1, h1'⟩
    · rw [h1] at hc
      obtain ⟨j, a, b⟩ := h.cur hc
      exact ⟨j, by rw [h2]; exact a, by omega⟩
    · obtain ⟨j, a, b⟩ := h.cur (Or.inr (Or.inl h1'))
      exact ⟨j, by rw [h2]; exact a, by omega⟩
  · rw [h3]; exact h.toks

theorem inv_idle {k i : Nat} {t : Lexer} (ht : ∀ x ∈ t.output, TokOk text x) (h1 : t.cs ≠ .name ∧ t.cs ≠ .dollar ∧ t.cs ≠ .ident) :
    Inv text k i t := by
  refine ⟨?_, ht⟩
  rintro (e | e | e)
  · exact absurd e h1.1
  · exact absurd e h1.2.1
  · exact absurd e h1.2.2

theorem sim_begin {k i : Nat} {s : Lexer} (c : Char) (ht : ∀ t ∈ s.output, TokOk text t) (hcs : s.cs = .start) (hi : i + 1 ≤ (text k).length) :
    Sim text k (i + 1) (begin (globL text s) (glob text ⟨k, i⟩) c) (begin s ⟨k, i⟩ c) := by
  have hp : (text k).length ≠ 0 := by omega
  unfold begin
  simp only
  have e0 : { globL text s with ts := some (glob text ⟨k, i⟩) } = globL text { s with ts := some ⟨k, i⟩ } := rfl
  have em : ∀ x : Lexer, markStart (globL text x) = globL text (markStart x) := fun _ => rfl
  have eg : (⟨(glob text ⟨k, i⟩).buf, (glob text ⟨k, i⟩).idx + 1⟩ : Ptr) = glob text ⟨k, i + 1⟩ := by simp [glob, Nat.add_assoc]
  rw [e0, em, eg]
  by_cases h1 : c = '('
  · rw [if_pos h1, if_pos h1]
    refine sim_track (fun l => ?_)
    rw [globL_print, globL_restart_emit]
    exact sim_ok (inv_emit ht (by omega) hi hp)
  · rw [if_neg h1, if_neg h1]
    by_cases h2 : c = ')'
    · rw [if_pos h2, if_pos h2]
      refine sim_track (fun l => ?_)
      rw [globL_print, globL_restart_emit]
      exact sim_ok (inv_emit ht (by omega) hi hp)
    · rw [if_neg h2, if_neg h2]
      by_cases h3 : c = '$'
      · rw [if_pos h3, if_pos h3]
        refine sim_track (fun l => ?_)
        exact sim_ok (s := { markStart { s with ts := some ⟨k, i⟩ } with location := l, cs := .dollar }) ⟨fun _ => ⟨i, rfl, by omega⟩, ht⟩
      · rw [if_neg h3, if_neg h3]
        by_cases h4 : allowed c = true
        · rw [if_pos h4, if_pos h4]
          refine sim_track (fun l => ?_)
          exact sim_ok (s := { markStart { s with ts := some ⟨k, i⟩ } with location := l, cs := .name }) ⟨fun _ => ⟨i, rfl, by omega⟩, ht⟩
        · rw [if_neg h4, if_neg h4]
          by_cases h5 : c = '\n'
          · rw [if_pos h5, if_pos h5]
            refine sim_track (fun l => ?_)
            exact sim_ok (s := { ({ s with ts := some ⟨k, i⟩ } : Lexer) with location := l, cs := .newline }) (inv_idle ht (by simp))
          · rw [if_neg h5, if_neg h5]
            by_cases h6 : isSpace c = true
            · rw [if_pos h6, if_pos h6]
              refine sim_track (fun l => ?_)
              exact sim_ok (s := { ({ s with ts := some ⟨k, i⟩ } : Lexer) with location := l, cs := .space }) (inv_idle ht (by simp))
            · rw [if_neg h6, if_neg h6]
              exact sim_ok (s := { ({ s with ts := some ⟨k, i⟩ } : Lexer) with cs := .error }) (inv_idle ht (by simp))

theorem finishName_start {t : Nat → List Char} {s f : Lexer} {p : Ptr} (h : finishName t s p = .ok f) : f.cs = .start := by
  unfold finishName at h
  obtain ⟨⟨a, b⟩, _, h⟩ := Outcome.bind_eq_ok.1 h
  cases h; rfl

theorem finishIdent_start {t : Nat → List Char} {s f : Lexer} {p : Ptr} (h : finishIdent t s p = .ok f) : f.cs = .start := by
  unfold finishIdent at h
  obtain ⟨⟨a, b⟩, _, h⟩ := Outcome.bind_eq_ok.1 h
  cases h; rfl

theorem sim_step (hw : Whole text whole) {k i : Nat} {s : Lexer} (c : Char) (h : Inv text k i s) (hi : i + 1 ≤ (text k).length) :
    Sim text k (i + 1) (stepChar (fun _ => whole) (globL text s) (glob text ⟨k, i⟩) c) (stepChar text s ⟨k, i⟩ c) := by
  have hp : (text k).length ≠ 0 := by omega
  unfold stepChar
  rw [show (globL text s).cs = s.cs from rfl]
  cases hcs : s.cs with
  | error => exact sim_ok (inv_same h (by omega) (Or.inl rfl) rfl rfl)
  | start => exact sim_begin c h.toks hcs hi
  | name =>
    simp only
    by_cases ha : allowed c = true
    · rw [if_pos ha, if_pos ha]
      exact sim_track' (fun l => inv_same h (by omega) (Or.inl rfl) rfl rfl)
    · rw [if_neg ha, if_neg ha]
      intro s1 h1
      obtain ⟨a, e1, e2⟩ := Outcome.bind_eq_ok.1 h1
      obtain ⟨b, e3, rfl, hb⟩ := sim_finishName hw h hcs (by omega) hp i a e1
      obtain ⟨s2, e4, r⟩ := sim_begin c hb.toks (finishName_start e3) hi s1 e2
      exact ⟨s2, by rw [e3]; exact e4, r⟩
  | dollar =>
    simp only
    by_cases ha : allowed c = true
    · rw [if_pos ha, if_pos ha]
      refine sim_track (fun l => ?_)
      exact sim_ok (s := { s with location := l, cs := .ident }) (inv_same h (by omega) (Or.inr ⟨rfl, hcs⟩) rfl rfl)
    · rw [if_neg ha, if_neg ha]
      exact sim_ok (s := { s with cs := .error }) (inv_idle h.toks (by simp))
  | ident =>
    simp only
    by_cases ha : allowed c = true
    · rw [if_pos ha, if_pos ha]
      exact sim_track' (fun l => inv_same h (by omega) (Or.inl rfl) rfl rfl)
    · rw [if_neg ha, if_neg ha]
      intro s1 h1
      obtain ⟨a, e1, e2⟩ := Outcome.bind_eq_ok.1 h1
      obtain ⟨b, e3, rfl, hb⟩ := sim_finishIdent hw h hcs (by omega) hp i a e1
      obtain ⟨s2, e4, r⟩ := sim_begin c hb.toks (finishIdent_start e3) hi s1 e2
      exact ⟨s2, by rw [e3]; exact e4, r⟩
  | newline =>
    simp only
    by_cases ha : isSpace c = true
    · rw [if_pos ha, if_pos ha]
      refine sim_track (fun l => ?_)
      exact sim_ok (s := { s with location := l, cs := .space }) (inv_idle h.toks (by simp))
    · rw [if_neg ha, if_neg ha]
      exact sim_begin (s := finishNewline s) c h.toks rfl hi
  | space =>
    simp only
    by_cases ha : isSpace c = true
    · rw [if_pos ha, if_pos ha]
      exact sim_track' (fun l => inv_same h (by omega) (Or.inl rfl) rfl rfl)
    · rw [if_neg ha, if_neg ha]
      exact sim_begin (s := finishSpace s) c h.toks rfl hi

theorem sim_feed (hw : Whole text whole) {k : Nat} : ∀ (cs : List Char) (i : Nat) (s : Lexer), Inv text k i s → i + cs.length ≤ (text k).length →
    Sim text k (i + cs.length) (feed (fun _ => whole) (globL text s) (glob text ⟨k, i⟩) cs) (feed text s ⟨k, i⟩ cs)
  | [], i, s, h, _ => sim_ok h
  | c :: cs, i, s, h, hi => by
    rw [List.length_cons] at hi
    simp only [feed]
    refine sim_bind (sim_step hw c h (by omega)) (fun t ht => ?_)
    have := sim_feed hw cs (i + 1) t ht (by omega)
    rw [List.length_cons, show i + (cs.length + 1) = i + 1 + cs.length from by omega]
    rw [show (⟨(glob text ⟨k, i⟩).buf, (glob text ⟨k, i⟩).idx + 1⟩ : Ptr) = glob text ⟨k, i + 1⟩ from by simp [glob, Nat.add_assoc]]
    exact this

end

/-- After a character that ends between tokens the lexer is not inside one. -/
theorem step_between {text : Nat → List Char} {s s' : Lexer} {p : Ptr} {c : Char} (hc : c = '(' ∨ c = ')' ∨ Space c)
    (h : stepChar text s p c = .ok s') : s'.cs = .start ∨ s'.cs = .newline ∨ s'.cs = .space ∨ s'.cs = .error := by
  have ha : allowed c = false := by
    rcases hc with rfl | rfl | hc
    · decide
    · decide
    · exact (not_others_of_space ((isSpace_iff c).2 hc)).2.2.2
  have hd : c ≠ '$' := by
    rcases hc with rfl | rfl | hc
    · decide
    · decide
    · exact (not_others_of_space ((isSpace_iff c).2 hc)).2.2.1
  have hb : ∀ (x y : Lexer), begin x p c = .ok y → y.cs = .start ∨ y.cs = .newline ∨ y.cs = .space ∨ y.cs = .error := by
    intro x y h
    unfold begin at h
    simp only at h
    split at h
    · obtain ⟨a, _, h⟩ := Outcome.bind_eq_ok.1 h
      cases h; exact Or.inl rfl
    · split at h
      · obtain ⟨a, _, h⟩ := Outcome.bind_eq_ok.1 h
        cases h; exact Or.inl rfl
      · try rw [if_neg hd] at h
        rw [if_neg (by simp [ha])] at h
        split at h
        · obtain ⟨a, _, h⟩ := Outcome.bind_eq_ok.1 h
          cases h; exact Or.inr (Or.inl rfl)
        · split at h
          · obtain ⟨a, _, h⟩ := Outcome.bind_eq_ok.1 h
            cases h; exact Or.inr (Or.inr (Or.inl rfl))
          · cases h; exact Or.inr (Or.inr (Or.inr rfl))
  unfold stepChar at h
  cases hcs : s.cs <;> rw [hcs] at h <;> simp only at h
  · exact hb _ _ h
  · rw [if_neg (by simp [ha])] at h
    obtain ⟨a, _, h⟩ := Outcome.bind_eq_ok.1 h
    exact hb _ _ h
  · rw [if_neg (by simp [ha])] at h
    cases h; exact Or.inr (Or.inr (Or.inr rfl))
  · rw [if_neg (by simp [ha])] at h
    obtain ⟨a, _, h⟩ := Outcome.bind_eq_ok.1 h
    exact hb _ _ h
  · split at h
    · obtain ⟨a, _, h⟩ := Outcome.bind_eq_ok.1 h
      cases h; exact Or.inr (Or.inr (Or.inl rfl))
    · exact hb _ _ h
  · split at h
    · obtain ⟨l, e, _⟩ := track_ok h
      subst e
      exact Or.inr (Or.inr (Or.inl hcs))
    · exact hb _ _ h
  · cases h; exact Or.inr (Or.inr (Or.inr hcs))

theorem feed_between {text : Nat → List Char} : ∀ {cs : List Char} {s s' : Lexer} {p : Ptr}, EndsBetween cs → cs ≠ [] →
    feed text s p cs = .ok s' → s'.cs = .start ∨ s'.cs = .newline ∨ s'.cs = .space ∨ s'.cs = .error
  | [], _, _, _, _, hne, _ => absurd rfl hne
  | [c], s, s', p, hc, _, h => by
    simp only [feed] at h
    obtain ⟨a, h1, h⟩ := Outcome.bind_eq_ok.1 h
    cases h
    exact step_between (hc c (by simp)) h1
  | c :: d :: cs, s, s', p, hc, _, h => by
    rw [feed] at h
    obtain ⟨a, h1, h⟩ := Outcome.bind_eq_ok.1 h
    exact feed_between (cs := d :: cs) (by intro x hx; exact hc x (by rw [List.getLast?_cons_cons]; exact hx)) (by simp) h

end Ab.Wast
