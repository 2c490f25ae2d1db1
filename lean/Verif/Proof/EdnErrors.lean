import Verif.Spec.EdnErrors
import Verif.Proof.EdnForm
/-! What the parser logs. -/
namespace Ab.Edn

open Spec Spec.EdnErrors

/-- Where the parser is. -/
def PS.at (s : PS) : Nat := match s.toks with
  | t :: _ => t.lo
  | [] => s.eof

/-- The tokens left are in order. -/
structure InOrder (s : PS) : Prop where
  pair : s.toks.Pairwise (fun a b => a.lo ≤ b.lo)
  last : ∀ t ∈ s.toks, t.lo ≤ s.eof

/-- A range that is a token's or the end. -/
def Placed (s : PS) (e : Err) : Prop := (∃ t ∈ s.toks, e.lo = t.lo ∧ e.hi = t.hi) ∨ (e.lo = s.eof ∧ e.hi = s.eof)

/-- Parsing went from `s` to `s'` and logged `errs`. -/
structure Logged (s s' : PS) (errs : List Err) : Prop where
  log : s'.log = s.log ++ errs
  eof : s'.eof = s.eof
  suf : ∃ pre, s.toks = pre ++ s'.toks
  placed : ∀ e ∈ errs, Placed s e
  order : InOrder s → errs.Pairwise (fun a b => a.lo ≤ b.lo) ∧ ∀ e ∈ errs, s.at ≤ e.lo ∧ e.lo ≤ s'.at

theorem InOrder.later {s s' : PS} (h : InOrder s) (he : s'.eof = s.eof) (hs : ∃ pre, s.toks = pre ++ s'.toks) : InOrder s' ∧ s.at ≤ s'.at := by
  obtain ⟨pre, hs⟩ := hs
  have hp := h.pair
  have hl := h.last
  rw [hs] at hp hl
  refine ⟨⟨(List.pairwise_append.1 hp).2.1, ?_⟩, ?_⟩
  · intro t ht; rw [he]; exact hl t (List.mem_append_right _ ht)
  · unfold PS.at
    rw [hs, he]
    cases pre with
    | nil => exact Nat.le_refl _
    | cons a pre =>
      simp only [List.cons_append]
      cases hs' : s'.toks with
      | nil => exact hl a (by simp)
      | cons b l =>
        simp only
        have := (List.pairwise_append.1 hp).2.2 a (by simp) b (by rw [hs']; simp)
        exact this

theorem Logged.refl (s : PS) : Logged s s [] :=
  ⟨by simp, rfl, ⟨[], rfl⟩, by simp, fun _ => ⟨List.Pairwise.nil, by simp⟩⟩

theorem Logged.trans {s s1 s2 : PS} {e1 e2 : List Err} (h1 : Logged s s1 e1) (h2 : Logged s1 s2 e2) : Logged s s2 (e1 ++ e2) := by
  obtain ⟨p1, hp1⟩ := h1.suf
  obtain ⟨p2, hp2⟩ := h2.suf
  refine ⟨by rw [h2.log, h1.log, List.append_assoc], h2.eof.trans h1.eof, ⟨p1 ++ p2, by rw [hp1, hp2, List.append_assoc]⟩, ?_, ?_⟩
  · intro e he
    rcases List.mem_append.1 he with he | he
    · exact h1.placed e he
    · rcases h2.placed e he with ⟨t, ht, hh⟩ | hh
      · exact Or.inl ⟨t, by rw [hp1]; exact List.mem_append_right _ ht, hh⟩
      · rw [h1.eof] at hh; exact Or.inr hh
  · intro ho
    obtain ⟨ho1, hle1⟩ := ho.later h1.eof h1.suf
    obtain ⟨ho2, hle2⟩ := ho1.later h2.eof h2.suf
    obtain ⟨a1, a2⟩ := h1.order ho
    obtain ⟨b1, b2⟩ := h2.order ho1
    refine ⟨List.pairwise_append.2 ⟨a1, b1, ?_⟩, ?_⟩
    · intro x hx y hy
      exact Nat.le_trans (a2 x hx).2 (b2 y hy).1
    · intro e he
      rcases List.mem_append.1 he with he | he
      · exact ⟨(a2 e he).1, Nat.le_trans (a2 e he).2 hle2⟩
      · exact ⟨Nat.le_trans hle1 (b2 e he).1, (b2 e he).2⟩

theorem err_next (s : PS) (m : String) : s.err m = { s with log := s.log ++ [aboutNext s.eof s.toks m] } := by
  unfold PS.err aboutNext about
  cases s.toks <;> rfl

theorem Logged.err (s : PS) (m : String) : Logged s (s.err m) [aboutNext s.eof s.toks m] := by
  rw [err_next]
  refine ⟨rfl, rfl, ⟨[], rfl⟩, ?_, ?_⟩
  · intro e he
    rw [List.mem_singleton] at he
    subst he
    unfold aboutNext about Placed
    cases s.toks with
    | nil => exact Or.inr ⟨rfl, rfl⟩
    | cons t ts => exact Or.inl ⟨t, by simp, rfl, rfl⟩
  · intro _
    refine ⟨by simp, ?_⟩
    intro e he
    rw [List.mem_singleton] at he
    subst he
    unfold PS.at aboutNext about
    cases s.toks <;> exact ⟨Nat.le_refl _, Nat.le_refl _⟩

theorem Logged.skip {s s' : PS} (h1 : s'.log = s.log) (h2 : s'.eof = s.eof) (h3 : s'.toks = s.toks.tail) : Logged s s' [] := by
  refine ⟨by simp [h1], h2, ?_, by simp, fun _ => ⟨List.Pairwise.nil, by simp⟩⟩
  rw [h3]
  cases s.toks with
  | nil => exact ⟨[], rfl⟩
  | cons t ts => exact ⟨[t], rfl⟩

/-- The errors that are not about keys that are there already. -/
def others (l : List Err) : List Err := l.filter (fun e => e.msg ≠ dupMsg)

theorem others_append (a b : List Err) : others (a ++ b) = others a ++ others b := List.filter_append ..

theorem others_cons {x : Err} (h : x.msg ≠ dupMsg) (l : List Err) : others (x :: l) = x :: others l := by
  unfold others; rw [List.filter_cons, if_pos (by simpa using h)]

theorem others_dup {x : Err} (h : x.msg = dupMsg) (l : List Err) : others (x :: l) = others l := by
  unfold others; rw [List.filter_cons, if_neg (by simpa using h)]

theorem aboutNext_msg (e : Nat) (ts : List Token) (m : String) : (aboutNext e ts m).msg = m := by
  cases ts <;> rfl

/-- What `parseNode` logs. -/
def NodeLog (s s' : PS) (r : Option Node) : Prop :=
  ∃ errs, Logged s s' errs ∧
    (∀ t ts, s.toks = t :: ts → isCloser t.kind = false → r.isSome = true ∧
      ∀ st, mistakes s.eof st s.toks = others errs ++ mistakes s.eof (afterDatum st) s'.toks) ∧
    (∀ t ts, s.toks = t :: ts → isCloser t.kind = true → r = none ∧ s'.toks = ts ∧ errs = [about t "unexepected closing delimiter."])

/-- What the loops log, with `f` open. -/
def CollLog (f : Open) (s s' : PS) : Prop :=
  ∃ errs, Logged s s' errs ∧ ∀ st, mistakes s.eof (f :: st) s.toks = others errs ++ mistakes s.eof st s'.toks

theorem map_at_end (L : Lib) : ∀ (fuel : Nat) (s : PS) (es : List Entry), s.toks = [] → ∀ r, parseMap L fuel s es ≠ .ok r := by
  intro fuel
  induction fuel with
  | zero => intro s es _ r h; rw [parseMap] at h; cases h
  | succ fuel ih =>
    intro s es hs r h
    rw [parseMap] at h
    have hk : s.kind = none := by unfold PS.kind; rw [hs]; rfl
    rw [hk] at h
    refine ih _ _ ?_ _ h
    rw [err_next, err_next]; exact hs

def frameOf (b : Bool) : Open := if b then .list else .vec

theorem log_all (L : Lib) : ∀ (fuel : Nat),
    (∀ s s' r, parseNode L fuel s = .ok (s', r) → NodeLog s s' r) ∧
    (∀ b s acc s' r, parseSeq L fuel b s acc = .ok (s', r) → CollLog (frameOf b) s s') ∧
    (∀ s es s' r, parseMap L fuel s es = .ok (s', r) → CollLog .key s s') := by
  intro fuel
  induction fuel with
  | zero =>
    refine ⟨?_, ?_, ?_⟩
    · intro s s' r h; rw [parseNode] at h; cases h
    · intro b s acc s' r h; rw [parseSeq] at h; cases h
    · intro s es s' r h; rw [parseMap] at h; cases h
  | succ fuel ih =>
    obtain ⟨ihn, ihs, ihm⟩ := ih
    refine ⟨?_, ?_, ?_⟩
    · intro s s' r h
      rw [parseNode] at h
      cases hs : s.toks with
      | nil =>
        rw [hs] at h
        injection h with h; injection h with h _; subst h
        refine ⟨[], Logged.refl s, ?_, ?_⟩ <;> (intro t ts hh; rw [hs] at hh; cases hh)
      | cons t ts =>
        rw [hs] at h
        simp only at h
        have hadv : Logged s s.adv [] := Logged.skip rfl rfl rfl
        have tl : s.adv.toks = ts := by simp [PS.adv, hs]
        cases hk : t.kind <;> rw [hk] at h <;> simp only at h
        case nil | bool | integer | real | string | symbol | keyword =>
          injection h with h; injection h with h1 h2; subst h1; subst h2
          refine ⟨[], Logged.skip rfl rfl rfl, ?_, ?_⟩
          · intro t' ts' hh hc
            refine ⟨rfl, fun st => ?_⟩
            simp only [others, List.filter_nil, List.nil_append, parseSym]
            rw [hs, mistakes.eq_def]
            simp only [hk, PS.adv, hs, List.tail_cons]
          · intro t' ts' hh hc
            rw [hs] at hh; injection hh with h1 h2; subst h1; rw [hk] at hc; cases hc
        case rparen | rbracket | rbrace =>
          injection h with h; injection h with h1 h2; subst h1; subst h2
          refine ⟨[about t "unexepected closing delimiter."], ?_, ?_, ?_⟩
          · have := (Logged.err s "unexepected closing delimiter.").trans (Logged.skip (s' := { s.adv with log := s.log ++ [about t "unexepected closing delimiter."] }) ?_ ?_ ?_)
            · rw [hs] at this; exact this
            · rw [err_next, hs]; rfl
            · rw [err_next]; rfl
            · rw [err_next]; rfl
          · intro t' ts' hh hc
            rw [hs] at hh; injection hh with h1 h2; subst h1; rw [hk] at hc; cases hc
          · intro t' ts' hh hc
            rw [hs] at hh; injection hh with h1 h2; subst h1; subst h2
            exact ⟨rfl, tl, rfl⟩
        case lparen | lbracket | lbrace =>
          obtain ⟨⟨s1, xs⟩, h1, h2⟩ := Outcome.bind_eq_ok.mp h
          injection h2 with h2; injection h2 with h2 h3; subst h2; subst h3
          have hm : ∃ errs f, Logged s.adv s1 errs ∧ (∀ st, mistakes s.adv.eof (f :: st) s.adv.toks = others errs ++ mistakes s.adv.eof st s1.toks) ∧
              (∀ st, mistakes s.eof st (t :: ts) = mistakes s.eof (f :: afterDatum st) ts) := by
            first
            | obtain ⟨errs, h3, h4⟩ := ihs _ _ _ _ _ h1
              refine ⟨errs, _, h3, h4, fun st => ?_⟩
              rw [mistakes.eq_def]; simp only [hk]; rfl
            | obtain ⟨errs, h3, h4⟩ := ihm _ _ _ _ h1
              refine ⟨errs, _, h3, h4, fun st => ?_⟩
              rw [mistakes.eq_def]; simp only [hk]
          obtain ⟨errs, f, h3, h4, h5⟩ := hm
          refine ⟨errs, hadv.trans h3, ?_, ?_⟩
          · intro t' ts' hh hc
            refine ⟨rfl, fun st => ?_⟩
            rw [hs, h5, ← tl]
            exact h4 _
          · intro t' ts' hh hc
            rw [hs] at hh; injection hh with h1 h2; subst h1; rw [hk] at hc; cases hc
    · intro b s acc s' r h
      rw [parseSeq] at h
      cases hk : s.kind with
      | none =>
        have hs : s.toks = [] := by
          unfold PS.kind at hk
          cases hs : s.toks with
          | nil => rfl
          | cons t ts => rw [hs] at hk; cases hk
        rw [hk] at h
        injection h with h; injection h with h1 _; subst h1
        refine ⟨_, Logged.err s _, fun st => ?_⟩
        rw [others_cons (by rw [aboutNext_msg]; exact dup_ne2 b none), err_next, hs]
        cases b <;> rfl
      | some k =>
        obtain ⟨t, ts, hs, ht⟩ := kind_some hk
        rw [hk] at h
        have next' : isCloser k = false → (do
            let (s, r) ← parseNode L fuel s
            match r with
            | some x => parseSeq L fuel b s (acc ++ [x])
            | none => parseSeq L fuel b s acc) = .ok (s', r) → CollLog (frameOf b) s s' := by
          intro hc h
          obtain ⟨⟨s1, x⟩, h1, h2⟩ := Outcome.bind_eq_ok.mp h
          obtain ⟨e1, hl1, hd1, -⟩ := ihn _ _ _ h1
          have h2' : ∃ xs, parseSeq L fuel b s1 xs = .ok (s', r) := by
            cases x with
            | none => exact ⟨_, h2⟩
            | some x => exact ⟨_, h2⟩
          obtain ⟨xs, h2⟩ := h2'
          obtain ⟨e2, hl2, hd2⟩ := ihs _ _ _ _ _ h2
          refine ⟨e1 ++ e2, hl1.trans hl2, fun st => ?_⟩
          have := (hd1 t ts hs (by rw [ht]; exact hc)).2 (frameOf b :: st)
          rw [this, others_append, List.append_assoc]
          congr 1
          rw [← hl1.eof]
          have hf : afterDatum (frameOf b :: st) = frameOf b :: st := by cases b <;> rfl
          rw [hf]
          exact hd2 st
        have tl : s.adv.toks = ts := by simp [PS.adv, hs]
        cases k <;> simp only at h
        case rbrace => cases h
        case rparen =>
          injection h with h; injection h with h1 _
          cases b with
          | true =>
            subst h1
            refine ⟨[], Logged.skip rfl rfl rfl, fun st => ?_⟩
            rw [hs, mistakes.eq_def]
            simp only [ht, frameOf, if_true, tl]
            rfl
          | false =>
            simp only [Bool.false_eq_true, if_false] at h1
            subst h1
            refine ⟨_, (Logged.err s _).trans (Logged.skip rfl rfl rfl), fun st => ?_⟩
            rw [List.append_nil, others_cons (by rw [aboutNext_msg]; exact dup_ne2 _ _), err_next, hs, mistakes.eq_def]
            simp only [ht, frameOf, Bool.false_eq_true, if_false]
            rfl
        case rbracket =>
          injection h with h; injection h with h1 _
          cases b with
          | false =>
            subst h1
            refine ⟨[], Logged.skip rfl rfl rfl, fun st => ?_⟩
            rw [hs, mistakes.eq_def]
            simp only [ht, frameOf, Bool.false_eq_true, if_false, tl]
            rfl
          | true =>
            simp only [if_true] at h1
            subst h1
            refine ⟨_, (Logged.err s _).trans (Logged.skip rfl rfl rfl), fun st => ?_⟩
            rw [List.append_nil, others_cons (by rw [aboutNext_msg]; exact dup_ne2 _ _), err_next, hs, mistakes.eq_def]
            simp only [ht, frameOf, if_true]
            rfl
        all_goals exact next' rfl h
    · intro s es s' r h
      rw [parseMap] at h
      cases hk : s.kind with
      | none =>
        have hs : s.toks = [] := by
          unfold PS.kind at hk
          cases hs : s.toks with
          | nil => rfl
          | cons t ts => rw [hs] at hk; cases hk
        rw [hk] at h
        exact absurd h (map_at_end L _ _ _ (by rw [err_next, err_next]; exact hs) _)
      | some k =>
        obtain ⟨t, ts, hs, ht⟩ := kind_some hk
        rw [hk] at h
        have next : isCloser k = false → (do
            let (s, k) ← parseNode L fuel s
            match k with
            | none => parseMap L fuel (s.err "failed to parse map key") es
            | some k =>
              match s.kind with
              | none =>
                parseMap L fuel
                  ((s.err "Unexpected end of file while parsing map value").err "key not followed by value in map") es
              | some .rbrace => .throw fmtBrace
              | some .rparen => .throw fmtBrace
              | some _ => do
                let (s, v) ← parseNode L fuel s
                match v with
                | none => parseMap L fuel (s.err "key not followed by value in map") es
                | some v => do
                  let _ ← Node.hash L k
                  let s := match findKey L es k with
                    | some _ => s.err "duplicate key discovered in map"
                    | none => s
                  parseMap L fuel s (insertEntry L es (k, v))) = .ok (s', r) → CollLog .key s s' := by
          intro hc h
          obtain ⟨⟨s1, x⟩, h1, h2⟩ := Outcome.bind_eq_ok.mp h
          obtain ⟨e1, hl1, hd1, -⟩ := ihn _ _ _ h1
          obtain ⟨hx, hq1⟩ := hd1 t ts hs (by rw [ht]; exact hc)
          cases x with
          | none => cases hx
          | some nk =>
            simp only at h2
            cases hk1 : s1.kind with
            | none =>
              rw [hk1] at h2
              have hs1 : s1.toks = [] := by
                unfold PS.kind at hk1
                cases hs : s1.toks with
                | nil => rfl
                | cons t ts => rw [hs] at hk1; cases hk1
              exact absurd h2 (map_at_end L _ _ _ (by rw [err_next, err_next]; exact hs1) _)
            | some k1 =>
              obtain ⟨t1, ts1, hs1, ht1⟩ := kind_some hk1
              rw [hk1] at h2
              have next2 : k1 ≠ .rbrace → k1 ≠ .rparen → (do
                  let (s, v) ← parseNode L fuel s1
                  match v with
                  | none => parseMap L fuel (s.err "key not followed by value in map") es
                  | some v => do
                    let _ ← Node.hash L nk
                    let s := match findKey L es nk with
                      | some _ => s.err "duplicate key discovered in map"
                      | none => s
                    parseMap L fuel s (insertEntry L es (nk, v))) = .ok (s', r) → CollLog .key s s' := by
                intro hn1 hn2 h
                obtain ⟨⟨s2, y⟩, h3, h4⟩ := Outcome.bind_eq_ok.mp h
                obtain ⟨e2, hl2, hd2, hc2⟩ := ihn _ _ _ h3
                have h12 := hl1.trans hl2
                cases hc1 : isCloser k1 with
                | true =>
                  have hk1' : k1 = .rbracket := by cases k1 <;> first | rfl | (cases hc1; done) | exact absurd rfl hn1 | exact absurd rfl hn2
                  subst hk1'
                  obtain ⟨hy, hs2, he2⟩ := hc2 t1 ts1 hs1 (by rw [ht1]; rfl)
                  subst hy
                  simp only at h4
                  obtain ⟨e3, hl3, hd3⟩ := ihm _ _ _ _ h4
                  refine ⟨_, (h12.trans (Logged.err s2 _)).trans hl3, fun st => ?_⟩
                  have heof : s2.eof = s.eof := h12.eof
                  have h5 := hd3 st
                  rw [err_next, hs2, heof] at h5
                  rw [hq1, hs1, mistakes.eq_def]
                  simp only [ht1, afterDatum]
                  rw [h5, he2, hs2, heof, others_append, others_append, others_append,
                    others_cons (x := about t1 _) dup_ne1, others_cons (x := aboutNext _ _ _) (by rw [aboutNext_msg]; exact dup_ne8)]
                  simp [others]
                | false =>
                  obtain ⟨hy, hq2⟩ := hd2 t1 ts1 hs1 (by rw [ht1]; exact hc1)
                  cases y with
                  | none => cases hy
                  | some nv =>
                    simp only at h4
                    obtain ⟨hh, -, h5⟩ := Outcome.bind_eq_ok.mp h4
                    have hst : ∃ s3 : PS, ∃ e3, Logged s2 s3 e3 ∧ s3.toks = s2.toks ∧ others e3 = [] ∧
                        parseMap L fuel s3 (insertEntry L es (nk, nv)) = .ok (s', r) := by
                      cases hfk : findKey L es nk with
                      | none => rw [hfk] at h5; exact ⟨s2, [], Logged.refl _, rfl, rfl, h5⟩
                      | some f =>
                        rw [hfk] at h5
                        exact ⟨_, _, Logged.err s2 _, err_toks _ _, others_dup (aboutNext_msg _ _ _) [], h5⟩
                    obtain ⟨s3, e3, hl3, ht3, ho3, h6⟩ := hst
                    obtain ⟨e4, hl4, hd4⟩ := ihm _ _ _ _ h6
                    refine ⟨_, (h12.trans hl3).trans hl4, fun st => ?_⟩
                    have h7 := hq2 (.value :: st)
                    have h8 := hd4 st
                    rw [hl1.eof] at h7
                    rw [ht3, hl3.eof, h12.eof] at h8
                    rw [hq1]
                    simp only [afterDatum] at h7 ⊢
                    rw [h7, h8, others_append, others_append, others_append, ho3]
                    simp
              cases k1 <;> simp only at h2
              case rbrace | rparen => cases h2
              all_goals exact next2 (by simp) (by simp) h2
        have tl : s.adv.toks = ts := by simp [PS.adv, hs]
        cases k <;> simp only at h
        case rbrace =>
          injection h with h; injection h with h1 _; subst h1
          refine ⟨[], Logged.skip rfl rfl rfl, fun st => ?_⟩
          rw [hs, mistakes.eq_def]
          simp only [ht, tl]
          rfl
        case rparen =>
          injection h with h; injection h with h1 _; subst h1
          refine ⟨_, (Logged.err s _).trans (Logged.skip rfl rfl rfl), fun st => ?_⟩
          rw [List.append_nil, others_cons (by rw [aboutNext_msg]; exact dup_ne3), err_next, hs, mistakes.eq_def]
          simp only [ht]
          rfl
        case rbracket =>
          injection h with h; injection h with h1 _; subst h1
          refine ⟨_, (Logged.err s _).trans (Logged.skip rfl rfl rfl), fun st => ?_⟩
          rw [List.append_nil, others_cons (by rw [aboutNext_msg]; exact dup_ne4), err_next, hs, mistakes.eq_def]
          simp only [ht]
          rfl
        all_goals exact next rfl h

theorem top_log (L : Lib) : ∀ (fuel : Nat) (s : PS) (acc : List Node) (s' : PS) (r : List Node),
    parseTop L fuel s acc = .ok (s', r) → ∃ errs, Logged s s' errs ∧ mistakes s.eof [] s.toks = others errs := by
  intro fuel
  induction fuel with
  | zero => intro s acc s' r h; rw [parseTop] at h; cases h
  | succ fuel ih =>
    intro s acc s' r h
    rw [parseTop] at h
    cases hs : s.toks with
    | nil =>
      rw [hs] at h
      injection h with h; injection h with h1 _; subst h1
      exact ⟨[], Logged.refl _, rfl⟩
    | cons t ts =>
      rw [hs] at h
      obtain ⟨⟨s1, x⟩, h1, h2⟩ := Outcome.bind_eq_ok.mp h
      obtain ⟨e1, hl1, hd1, hc1⟩ := (log_all L fuel).1 _ _ _ h1
      have hst : ∃ acc', parseTop L fuel s1 acc' = .ok (s', r) := by
        cases x with
        | none => exact ⟨_, h2⟩
        | some x => exact ⟨_, h2⟩
      obtain ⟨acc', h2⟩ := hst
      obtain ⟨e2, hl2, hd2⟩ := ih _ _ _ _ h2
      refine ⟨_, hl1.trans hl2, ?_⟩
      rw [hl1.eof] at hd2
      rw [others_append, ← hd2]
      cases hc : isCloser t.kind with
      | false =>
        have := (hd1 t ts hs hc).2 []
        rw [hs] at this
        exact this
      | true =>
        obtain ⟨-, h3, h4⟩ := hc1 t ts hs hc
        rw [h3, h4, others_cons (x := about t _) dup_ne1, mistakes.eq_def]
        cases hk : t.kind <;> rw [hk] at hc <;> first | (cases hc; done) | (simp only [hk]; rfl)

end Ab.Edn
