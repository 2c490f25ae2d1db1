import Verif.Model.EdnPrint
import Verif.Spec.EdnPrint
/-! C113: parsing is silent. -/
namespace Ab.Edn.Print
open Spec.EdnPrint

/-- The printing call does what the other does, and writes the lines of the tokens it takes. -/
def Rel {α : Type} (s : PS) (p : Pr (PS × α)) (q : Outcome (PS × α)) : Prop :=
  p.res = q ∧ ∃ pre rest, s.toks = pre ++ rest ∧ p.out = lines pre ∧ ∀ s' a, q = .ok (s', a) → s'.toks = rest

theorem Rel.stop {α : Type} {s : PS} {q : Outcome (PS × α)} (h : ∀ s' a, q = .ok (s', a) → s'.toks = s.toks) :
    Rel s (quiet q) q := ⟨rfl, [], s.toks, rfl, rfl, h⟩

theorem Rel.take {α : Type} {s s' : PS} {a : α} {t : Token} {ts : List Token} {o : List Byte} (hs : s.toks = t :: ts) (hs' : s'.toks = ts)
    (ho : o = line t) : Rel s ⟨o, .ok (s', a)⟩ (.ok (s', a)) := by
  refine ⟨rfl, [t], ts, hs, ?_, ?_⟩
  · show o = _; rw [ho]; simp [lines]
  · intro s'' a' h; cases h; exact hs'

theorem Rel.seq {α β : Type} {s : PS} {p : Pr (PS × α)} {q : Outcome (PS × α)} {f : PS × α → Pr (PS × β)} {g : PS × α → Outcome (PS × β)}
    (h : Rel s p q) (hf : ∀ r, q = .ok r → Rel r.1 (f r) (g r)) : Rel s (p.bind f) (q >>= g) := by
  obtain ⟨h1, pre, rest, h2, h3, h4⟩ := h
  unfold Pr.bind
  rw [h1]
  cases q with
  | ok r =>
    obtain ⟨g1, pre', rest', g2, g3, g4⟩ := hf r rfl
    have := h4 r.1 r.2 rfl
    refine ⟨g1, pre ++ pre', rest', ?_, ?_, g4⟩
    · rw [h2, ← this, g2, List.append_assoc]
    · show p.out ++ (f r).out = _
      rw [h3, g3]; simp [lines]
  | _ => exact ⟨rfl, pre, rest, h2, h3, fun _ _ h => by cases h⟩

/-- A token that writes nothing is taken first. -/
theorem Rel.after {α : Type} {s s' : PS} {t : Token} {ts : List Token} {p : Pr (PS × α)} {q : Outcome (PS × α)} (hs : s.toks = t :: ts)
    (hs' : s'.toks = ts) (hl : line t = []) (h : Rel s' p q) : Rel s p q := by
  obtain ⟨h1, pre, rest, h2, h3, h4⟩ := h
  refine ⟨h1, t :: pre, rest, ?_, ?_, h4⟩
  · rw [hs, ← hs', h2]; rfl
  · rw [h3]; simp [lines, hl]

/-- What is done first leaves the tokens alone. -/
theorem Rel.same {α : Type} {s s' : PS} {p : Pr (PS × α)} {q : Outcome (PS × α)} (hs : s'.toks = s.toks) (h : Rel s' p q) : Rel s p q := by
  obtain ⟨h1, pre, rest, h2, h3, h4⟩ := h
  exact ⟨h1, pre, rest, by rw [← hs, h2], h3, h4⟩

theorem Rel.hash {α : Type} {s : PS} {x : Outcome U64} {f : U64 → Pr (PS × α)} {g : U64 → Outcome (PS × α)}
    (h : ∀ v, Rel s (f v) (g v)) : Rel s ((quiet x).bind f) (x >>= g) := by
  cases x with
  | ok v =>
    obtain ⟨h1, pre, rest, h2, h3, h4⟩ := h v
    exact ⟨h1, pre, rest, h2, by show [] ++ (f v).out = _; rw [h3]; rfl, h4⟩
  | _ => exact ⟨rfl, [], s.toks, rfl, rfl, fun _ _ h => by cases h⟩

theorem err_toks (s : PS) (m : String) : (s.err m).toks = s.toks := by
  unfold PS.err; cases h : s.toks <;> simp [h]

theorem adv_toks {s : PS} {t : Token} {ts : List Token} (h : s.toks = t :: ts) : s.adv.toks = ts := by
  unfold PS.adv; rw [h]; rfl

theorem kind_some {s : PS} {k : Kind} (h : s.kind = some k) : ∃ t ts, s.toks = t :: ts ∧ t.kind = k := by
  unfold PS.kind at h
  cases hs : s.toks with
  | nil => rw [hs] at h; cases h
  | cons t ts => rw [hs] at h; exact ⟨t, ts, rfl, by simpa using h⟩

theorem rel_all (L : Lib) (fuel : Nat) :
    (∀ s, Rel s (parseNode L fuel s) (Edn.parseNode L fuel s)) ∧
    (∀ b s acc, Rel s (parseSeq L fuel b s acc) (Edn.parseSeq L fuel b s acc)) ∧
    (∀ s es, Rel s (parseMap L fuel s es) (Edn.parseMap L fuel s es)) := by
  induction fuel with
  | zero =>
    refine ⟨fun s => ?_, fun b s acc => ?_, fun s es => ?_⟩ <;> exact Rel.stop (fun _ _ h => by cases h)
  | succ fuel ih =>
    obtain ⟨ihN, ihS, ihM⟩ := ih
    refine ⟨fun s => ?_, fun b s acc => ?_, fun s es => ?_⟩
    · rw [parseNode.eq_def, Edn.parseNode.eq_def]
      dsimp only
      cases hs : s.toks with
      | nil => exact Rel.stop (fun s' a h => by cases h; rfl)
      | cons t ts =>
        dsimp only
        cases hk : t.kind with
        | lparen => exact Rel.after hs (adv_toks hs) (by simp [line, hk]) (Rel.seq (ihS _ _ _) (fun r _ => Rel.stop (fun s' a h => by cases h; rfl)))
        | lbracket => exact Rel.after hs (adv_toks hs) (by simp [line, hk]) (Rel.seq (ihS _ _ _) (fun r _ => Rel.stop (fun s' a h => by cases h; rfl)))
        | lbrace => exact Rel.after hs (adv_toks hs) (by simp [line, hk]) (Rel.seq (ihM _ _) (fun r _ => Rel.stop (fun s' a h => by cases h; rfl)))
        | string => exact Rel.take hs (adv_toks hs) (by simp only [line, hk]; rfl)
        | symbol => exact Rel.take hs (adv_toks hs) (by simp only [line, hk]; rfl)
        | keyword => exact Rel.take hs (adv_toks hs) (by simp only [line, hk]; rfl)
        | _ => exact Rel.take hs (adv_toks hs) (by simp only [line, hk])
    · rw [parseSeq.eq_def, Edn.parseSeq.eq_def]
      dsimp only
      cases hk : s.kind with
      | none => exact Rel.stop (fun s' a h => by cases h; exact err_toks ..)
      | some k =>
        obtain ⟨t, ts, hs, ht⟩ := kind_some hk
        have node : ∀ {α : Type} (f : _ → Pr (PS × α)) (g : _ → Outcome (PS × α)), (∀ r, Rel r.1 (f r) (g r)) →
            Rel s ((parseNode L fuel s).bind f) (Edn.parseNode L fuel s >>= g) := fun f g h => Rel.seq (ihN s) (fun r _ => h r)
        cases k with
        | rparen =>
          refine Rel.take hs ?_ (by simp [line, ht])
          cases b
          · exact adv_toks (by simp only [Bool.false_eq_true, if_false]; rw [err_toks, hs])
          · exact adv_toks (by simpa using hs)
        | rbracket =>
          refine Rel.take hs ?_ (by simp [line, ht])
          cases b
          · exact adv_toks (by simpa using hs)
          · exact adv_toks (by simp only [if_true]; rw [err_toks, hs])
        | rbrace => exact Rel.stop (fun _ _ h => by cases h)
        | _ =>
          refine node _ _ (fun r => ?_)
          obtain ⟨s', x⟩ := r
          cases x <;> exact ihS _ _ _
    · rw [parseMap.eq_def, Edn.parseMap.eq_def]
      dsimp only
      cases hk : s.kind with
      | none => exact Rel.same (by rw [err_toks, err_toks]) (ihM _ _)
      | some k =>
        obtain ⟨t, ts, hs, ht⟩ := kind_some hk
        have inner : Rel s
            ((parseNode L fuel s).bind fun r =>
              match r.2 with
              | none => parseMap L fuel (r.1.err "failed to parse map key") es
              | some k =>
                match r.1.kind with
                | none =>
                  parseMap L fuel ((r.1.err "Unexpected end of file while parsing map value").err "key not followed by value in map") es
                | some .rbrace => quiet (.throw fmtBrace)
                | some .rparen => quiet (.throw fmtBrace)
                | some _ => (parseNode L fuel r.1).bind fun r =>
                  match r.2 with
                  | none => parseMap L fuel (r.1.err "key not followed by value in map") es
                  | some v => (quiet (Node.hash L k)).bind fun _ =>
                    parseMap L fuel (match findKey L es k with
                      | some _ => r.1.err "duplicate key discovered in map"
                      | none => r.1) (insertEntry L es (k, v)))
            (Edn.parseNode L fuel s >>= fun r =>
              match r.2 with
              | none => Edn.parseMap L fuel (r.1.err "failed to parse map key") es
              | some k =>
                match r.1.kind with
                | none =>
                  Edn.parseMap L fuel ((r.1.err "Unexpected end of file while parsing map value").err "key not followed by value in map") es
                | some .rbrace => .throw fmtBrace
                | some .rparen => .throw fmtBrace
                | some _ => Edn.parseNode L fuel r.1 >>= fun r =>
                  match r.2 with
                  | none => Edn.parseMap L fuel (r.1.err "key not followed by value in map") es
                  | some v => Node.hash L k >>= fun _ =>
                    Edn.parseMap L fuel (match findKey L es k with
                      | some _ => r.1.err "duplicate key discovered in map"
                      | none => r.1) (insertEntry L es (k, v))) := by
          refine Rel.seq (ihN s) (fun r _ => ?_)
          obtain ⟨s', x⟩ := r
          cases x with
          | none => exact Rel.same (err_toks ..) (ihM _ _)
          | some k =>
            dsimp only
            have value : Rel s' ((parseNode L fuel s').bind fun r =>
                  match r.2 with
                  | none => parseMap L fuel (r.1.err "key not followed by value in map") es
                  | some v => (quiet (Node.hash L k)).bind fun _ =>
                    parseMap L fuel (match findKey L es k with
                      | some _ => r.1.err "duplicate key discovered in map"
                      | none => r.1) (insertEntry L es (k, v)))
                (Edn.parseNode L fuel s' >>= fun r =>
                  match r.2 with
                  | none => Edn.parseMap L fuel (r.1.err "key not followed by value in map") es
                  | some v => Node.hash L k >>= fun _ =>
                    Edn.parseMap L fuel (match findKey L es k with
                      | some _ => r.1.err "duplicate key discovered in map"
                      | none => r.1) (insertEntry L es (k, v))) := by
              refine Rel.seq (ihN s') (fun r _ => ?_)
              obtain ⟨s'', x⟩ := r
              cases x with
              | none => exact Rel.same (err_toks ..) (ihM _ _)
              | some v =>
                refine Rel.hash (fun _ => Rel.same ?_ (ihM _ _))
                split
                · exact err_toks ..
                · rfl
            cases hk' : s'.kind with
            | none => exact Rel.same (by rw [err_toks, err_toks]) (ihM _ _)
            | some k' =>
              cases k' with
              | rbrace => exact Rel.stop (fun _ _ h => by cases h)
              | rparen => exact Rel.stop (fun _ _ h => by cases h)
              | _ => exact value
        cases k with
        | rbrace => exact Rel.take hs (adv_toks hs) (by simp [line, ht])
        | rparen => exact Rel.take hs (adv_toks (by rw [err_toks, hs])) (by simp [line, ht])
        | rbracket => exact Rel.take hs (adv_toks (by rw [err_toks, hs])) (by simp [line, ht])
        | _ => exact inner

theorem rel_top (L : Lib) (fuel : Nat) : ∀ s acc, Rel s (parseTop L fuel s acc) (Edn.parseTop L fuel s acc) := by
  induction fuel with
  | zero => intro s acc; exact Rel.stop (fun _ _ h => by cases h)
  | succ fuel ih =>
    intro s acc
    rw [parseTop.eq_def, Edn.parseTop.eq_def]
    dsimp only
    cases hs : s.toks with
    | nil => exact Rel.stop (fun s' a h => by cases h; rfl)
    | cons t ts =>
      refine Rel.seq ((rel_all L fuel).1 s) (fun r _ => ?_)
      obtain ⟨s', x⟩ := r
      cases x <;> exact ih _ _

/-- The parser stops at the end of the tokens only. -/
theorem top_done (L : Lib) (fuel : Nat) : ∀ s acc s' ns, Edn.parseTop L fuel s acc = .ok (s', ns) → s'.toks = [] := by
  induction fuel with
  | zero => intro s acc s' ns h; cases h
  | succ fuel ih =>
    intro s acc s' ns h
    rw [Edn.parseTop.eq_def] at h
    dsimp only at h
    cases hs : s.toks with
    | nil => rw [hs] at h; cases h; exact hs
    | cons t ts =>
      rw [hs] at h
      obtain ⟨r, h1, h2⟩ := Outcome.bind_eq_ok.1 h
      obtain ⟨s1, x⟩ := r
      cases x <;> exact ih _ _ _ _ h2

/-- C113, what is written: parsing a text that is split into tokens writes the lines for its strings, symbols and keywords, in
order; for all of them if the parser completes, for those of some first tokens if it does not; and nothing else. That lines are
written at all is why the claim is false. -/
theorem C113_lines_partial (L : Lib) (fuel : Nat) (tab : SymTab) (text : List Byte) (toks : List Token) (l : Lex)
    (h : lex L text = .ok (toks, l)) :
    (parse L fuel tab text).res = Edn.parse L fuel tab text ∧
    (∃ pre rest, toks = pre ++ rest ∧ (parse L fuel tab text).out = lines pre) ∧
    ((Edn.parse L fuel tab text).isOk = true → (parse L fuel tab text).out = lines toks) := by
  obtain ⟨h1, pre, rest, h2, h3, h4⟩ := rel_top L fuel ⟨toks, l.pos, tab, []⟩ []
  have hp : parse L fuel tab text = (parseTop L fuel ⟨toks, l.pos, tab, []⟩ []).bind fun q => quiet (.ok ⟨q.2, q.1.log, l.breaks, q.1.tab⟩) := by
    unfold parse
    rw [h]
    simp only [quiet, Pr.bind, List.nil_append]
  have hq : Edn.parse L fuel tab text =
      (Edn.parseTop L fuel ⟨toks, l.pos, tab, []⟩ [] >>= fun q => .ok ⟨q.2, q.1.log, l.breaks, q.1.tab⟩) := by
    unfold Edn.parse
    rw [h]
    rfl
  have ho : (parse L fuel tab text).out = lines pre := by
    rw [hp, ← h3]
    unfold Pr.bind
    rw [h1]
    cases Edn.parseTop L fuel ⟨toks, l.pos, tab, []⟩ [] <;> simp [quiet]
  refine ⟨?_, ⟨pre, rest, h2, ho⟩, ?_⟩
  · rw [hp, hq]
    unfold Pr.bind
    rw [h1]
    cases Edn.parseTop L fuel ⟨toks, l.pos, tab, []⟩ [] <;> rfl
  · intro hk
    rw [hq] at hk
    cases hr : Edn.parseTop L fuel ⟨toks, l.pos, tab, []⟩ [] with
    | ok r =>
      have hn : rest = [] := by rw [← h4 r.1 r.2 hr]; exact top_done L fuel _ _ _ _ hr
      rw [hn, List.append_nil] at h2
      rw [ho, show toks = pre from h2]
    | _ => rw [hr] at hk; cases hk

/-- C113, the part that holds: a text without strings, symbols and keywords is parsed in silence, however parsing ends. -/
theorem C113_silent_partial (L : Lib) (fuel : Nat) (tab : SymTab) (text : List Byte) (toks : List Token) (l : Lex)
    (h : lex L text = .ok (toks, l)) (hk : ∀ t ∈ toks, t.kind ≠ .string ∧ t.kind ≠ .symbol ∧ t.kind ≠ .keyword) :
    (parse L fuel tab text).out = [] := by
  obtain ⟨_, ⟨pre, rest, h1, h2⟩, _⟩ := C113_lines_partial L fuel tab text toks l h
  rw [h2]
  unfold lines
  rw [List.flatMap_eq_nil_iff]
  intro t ht
  obtain ⟨a, b, c⟩ := hk t (by rw [h1]; exact List.mem_append_left _ ht)
  unfold line
  split <;> first | contradiction | rfl

/-- C113 is false of the code: parsing `a` writes `parsed symbol a`, a line feed after it, whatever the symbol table. -/
theorem C113_negation (L : Lib) (tab : SymTab) : (parse L 3 tab [97#8]).res.isOk = true ∧
    (parse L 3 tab [97#8]).out = [112#8, 97#8, 114#8, 115#8, 101#8, 100#8, 32#8, 115#8, 121#8, 109#8, 98#8, 111#8, 108#8, 32#8, 97#8, 10#8] := by
  have hl : lex L [97#8] = .ok ([⟨.symbol, [97#8], 0, 1⟩], ⟨[], 1, false, []⟩) := rfl
  have hk : (Edn.parse L 3 tab [97#8]).isOk = true := by
    unfold Edn.parse
    rw [hl]
    rfl
  obtain ⟨h1, _, h2⟩ := C113_lines_partial L 3 tab [97#8] _ _ hl
  exact ⟨by rw [h1]; exact hk, by rw [h2 hk]; rfl⟩

/-- `(a "x" 1 :k)`: three lines; `[1 nil]` has tokens none of which is written. -/
example (L : Lib) : ∃ ts l, lex L [40#8, 97#8, 32#8, 34#8, 120#8, 34#8, 32#8, 49#8, 32#8, 58#8, 107#8, 41#8] = .ok (ts, l) ∧
    lines ts = asBytes "parsed symbol a\nparsed string \"x\"\nparsed keyword :k\n" := ⟨_, _, rfl, by decide⟩

example (L : Lib) : ∃ ts l, lex L [91#8, 49#8, 32#8, 110#8, 105#8, 108#8, 93#8] = .ok (ts, l) ∧ ts.length = 4 ∧
    ∀ t ∈ ts, t.kind ≠ .string ∧ t.kind ≠ .symbol ∧ t.kind ≠ .keyword := ⟨_, _, rfl, rfl, by decide⟩

end Ab.Edn.Print
