import Verif.Spec.EdnLex
import Verif.Proof.Regex
/-! The lexer's loop in terms of the lexemes of the text. -/
namespace Ab.Edn

open Spec Re

theorem lexemes_exists (s : List Byte) : ∃ ls rest, Lexemes s ls rest := by
  have key : ∀ (n : Nat) (s : List Byte), s.length < n → ∃ ls rest, Lexemes s ls rest := by
    intro n
    induction n with
    | zero => intro s h; omega
    | succ n ih =>
      intro s h
      have hs := (scan_spec rules s).1
      cases hb : (scan rules s).best with
      | none => rw [hb] at hs; exact ⟨[], s, .done hs⟩
      | some kn =>
        rw [hb] at hs
        obtain ⟨k, m⟩ := kn
        have h1 := hs.pos
        have h2 := hs.le
        obtain ⟨ls, rest, h3⟩ := ih (s.drop m) (by simp; omega)
        exact ⟨_, rest, .step hs h3⟩
  exact key _ s (Nat.lt_succ_self _)

theorem longest_not_noMatch {s : List Byte} {k n} (h : Longest rules s k n) (h' : NoMatch rules s) : False := by
  obtain ⟨i, r, h1, h2, -⟩ := h.first
  exact h' n (k, r) h.pos h.le (List.mem_of_getElem? h1) h2

theorem lexemes_unique {s : List Byte} {ls rest} (h : Lexemes s ls rest) :
    ∀ {ls' rest'}, Lexemes s ls' rest' → ls = ls' ∧ rest = rest' := by
  induction h with
  | done hn =>
    intro ls' rest' h'
    cases h' with
    | done => exact ⟨rfl, rfl⟩
    | step hl _ => exact (longest_not_noMatch hl hn).elim
  | step hl _ ih =>
    intro ls' rest' h'
    cases h' with
    | done hn => exact (longest_not_noMatch hl hn).elim
    | step hl' h2 =>
      obtain ⟨e1, e2⟩ := Longest.unique hl hl'
      subst e1; subst e2
      obtain ⟨e3, e4⟩ := ih h2
      exact ⟨by rw [e3], e4⟩

/-- The lexemes and the rest make up the text. -/
theorem lexemes_text {s : List Byte} {ls rest} (h : Lexemes s ls rest) :
    s = (ls.map (·.2)).flatten ++ rest ∧ (∀ l ∈ ls, l.2 ≠ []) ∧ NoMatch rules rest := by
  induction h with
  | done hn => exact ⟨by simp, by simp, hn⟩
  | @step s r n ls rest hl _ ih =>
    obtain ⟨h1, h2, h3⟩ := ih
    refine ⟨?_, ?_, h3⟩
    · simp only [List.map_cons, List.flatten_cons, List.append_assoc, ← h1, List.take_append_drop]
    · intro l hl'
      rcases List.mem_cons.mp hl' with h | h
      · subst h
        intro hh
        have hpos := hl.pos
        have hle := hl.le
        have := congrArg List.length hh
        simp at this
        have h0 : s.length ≠ 0 := by omega
        rcases this with h | h
        · omega
        · subst h; simp at h0
      · exact h2 l h

/-- The END state reached from `l` when nothing matches. -/
def endOf (l : Lex) : Lex :=
  if l.rest = [] ∨ l.err then l
  else { l with rest := l.rest.drop (scan rules l.rest).read, pos := l.pos + (scan rules l.rest).read,
                err := (scan rules l.rest).stuck }

/-- The state after one lexeme. -/
def step1 (l : Lex) (r : Rule) (t : List Byte) : Lex :=
  { l with rest := l.rest.drop t.length, pos := l.pos + t.length,
           breaks := if IsSkip r then l.breaks ++ newlines l.pos t else l.breaks }

/-- The state after some lexemes. -/
def steps (l : Lex) : List (Rule × List Byte) → Lex
  | [] => l
  | (r, t) :: ls => steps (step1 l r t) ls

/-- The tokens, as a computation (an integer may overflow). -/
def toks (L : Lib) : Nat → List (Rule × List Byte) → Outcome (List Token)
  | _, [] => .ok []
  | pos, (r, t) :: ls => do
    let k ← tokenOf L r t
    let ts ← toks L (pos + t.length) ls
    match k with
    | some k => pure (⟨k, t, pos, pos + t.length⟩ :: ts)
    | none => pure ts

theorem tokenOf_none {L : Lib} {r t} : tokenOf L r t = .ok none ↔ IsSkip r := by
  unfold tokenOf IsSkip
  cases r <;> simp
  all_goals
    intro h
    obtain ⟨v, h1, h2⟩ := Outcome.bind_eq_ok.mp h
    cases h2

theorem tokenOf_skip {L : Lib} {r t} (h : IsSkip r) : tokenOf L r t = .ok none := tokenOf_none.mpr h

theorem next_none {L : Lib} {fuel : Nat} {l : Lex} (h : l.rest = [] ∨ l.err = true ∨ NoMatch rules l.rest) :
    next L (fuel + 1) l = .ok (none, endOf l) := by
  unfold next endOf
  by_cases h0 : l.rest = [] ∨ l.err
  · rw [if_pos h0, if_pos h0]
  · rw [if_neg h0, if_neg h0]
    have hn : NoMatch rules l.rest := by
      rcases h with h | h | h
      · exact absurd (Or.inl h) h0
      · exact absurd (Or.inr h) h0
      · exact h
    have hs := (scan_spec rules l.rest).1
    cases hb : (scan rules l.rest).best with
    | none => simp only [hb]
    | some kn =>
      rw [hb] at hs
      exact (longest_not_noMatch hs hn).elim

theorem longest_ne {l : Lex} {r n} (h : Longest rules l.rest r n) : l.rest ≠ [] := by
  intro h0
  have h1 := h.pos
  have h2 := h.le
  rw [h0] at h2; simp at h2; omega

theorem next_skip {L : Lib} {fuel : Nat} {l : Lex} {r n} (he : l.err = false) (h : Longest rules l.rest r n)
    (hs : IsSkip r) : next L (fuel + 1) l = next L fuel (step1 l r (l.rest.take n)) := by
  have hne := longest_ne h
  rw [next]
  rw [if_neg (by simp [hne, he])]
  simp only [scan_of_longest h]
  have hl : (l.rest.take n).length = n := by rw [List.length_take]; exact Nat.min_eq_left h.le
  rw [tokenOf_skip hs]
  simp only [Outcome.ok_bind, step1, hl, if_pos hs]

theorem next_tok {L : Lib} {fuel : Nat} {l : Lex} {r n} (he : l.err = false) (h : Longest rules l.rest r n)
    (hs : ¬ IsSkip r) : next L (fuel + 1) l =
      tokenOf L r (l.rest.take n) >>= fun k => match k with
        | some k => .ok (some ⟨k, l.rest.take n, l.pos, l.pos + n⟩, step1 l r (l.rest.take n))
        | none => .fuel := by
  have hne := longest_ne h
  rw [next]
  rw [if_neg (by simp [hne, he])]
  simp only [scan_of_longest h]
  have hl : (l.rest.take n).length = n := by rw [List.length_take]; exact Nat.min_eq_left h.le
  cases ht : tokenOf L r (l.rest.take n) with
  | ok k =>
    cases k with
    | none => exact absurd (tokenOf_none.mp ht) hs
    | some k => simp only [Outcome.ok_bind, step1, hl, if_neg hs]; rfl
  | _ => rfl

theorem next_fuel (L : Lib) : ∀ (n : Nat) (l : Lex) (f g : Nat), l.rest.length < n → l.rest.length < f →
    l.rest.length < g → next L f l = next L g l := by
  intro n
  induction n with
  | zero => intro l f g h; omega
  | succ n ih =>
    intro l f g h hf hg
    obtain ⟨f, rfl⟩ : ∃ f', f = f' + 1 := ⟨f - 1, by omega⟩
    obtain ⟨g, rfl⟩ : ∃ g', g = g' + 1 := ⟨g - 1, by omega⟩
    cases he : l.err with
    | true => rw [next_none (Or.inr (Or.inl he)), next_none (Or.inr (Or.inl he))]
    | false =>
      have hs := (scan_spec rules l.rest).1
      cases hb : (scan rules l.rest).best with
      | none =>
        rw [hb] at hs
        rw [next_none (Or.inr (Or.inr hs)), next_none (Or.inr (Or.inr hs))]
      | some kn =>
        rw [hb] at hs
        obtain ⟨r, m⟩ := kn
        by_cases hr : IsSkip r
        · rw [next_skip he hs hr, next_skip he hs hr]
          have h1 := hs.pos
          have h2 := hs.le
          have hlen : (step1 l r (l.rest.take m)).rest.length = l.rest.length - m := by
            simp [step1]; omega
          apply ih <;> omega
        · rw [next_tok he hs hr, next_tok he hs hr]

theorem lexAll_spec (L : Lib) {s : List Byte} {ls rest} (h : Lexemes s ls rest) :
    ∀ (l : Lex) (fuel : Nat), l.rest = s → l.err = false → s.length < fuel →
      lexAll L fuel l = toks L l.pos ls >>= fun ts => .ok (ts, endOf (steps l ls)) := by
  induction h with
  | @done s hn =>
    intro l fuel hl he hf
    obtain ⟨fuel, rfl⟩ : ∃ f', fuel = f' + 1 := ⟨fuel - 1, by omega⟩
    rw [lexAll, next_none (Or.inr (Or.inr (by rw [hl]; exact hn)))]
    rfl
  | @step s r n ls rest hlong _ ih =>
    intro l fuel hl he hf
    obtain ⟨fuel, rfl⟩ : ∃ f', fuel = f' + 1 := ⟨fuel - 1, by omega⟩
    subst hl
    have h1 := hlong.pos
    have h2 := hlong.le
    have hlen : (l.rest.take n).length = n := by rw [List.length_take]; exact Nat.min_eq_left hlong.le
    have hrest : (step1 l r (l.rest.take n)).rest = l.rest.drop n := by simp only [step1, hlen]
    have hpos : (step1 l r (l.rest.take n)).pos = l.pos + (l.rest.take n).length := rfl
    have hl2 : (step1 l r (l.rest.take n)).rest.length = l.rest.length - n := by rw [hrest]; simp
    by_cases hr : IsSkip r
    · have hih := ih (step1 l r (l.rest.take n)) (fuel + 1) hrest he (by simp; omega)
      rw [lexAll] at hih ⊢
      rw [next_skip he hlong hr]
      rw [next_fuel L _ _ _ ((step1 l r (l.rest.take n)).rest.length + 1) (Nat.lt_succ_self _)
        (by omega) (by omega)]
      rw [hih]
      simp only [toks, tokenOf_skip hr, Outcome.ok_bind, steps, hpos, Outcome.bind_assoc']
      rfl
    · rw [lexAll, next_tok he hlong hr]
      cases ht : tokenOf L r (l.rest.take n) with
      | ok k =>
        cases k with
        | none => exact absurd (tokenOf_none.mp ht) hr
        | some k =>
          simp only [Outcome.ok_bind, toks, ht, steps]
          rw [ih (step1 l r (l.rest.take n)) fuel hrest he (by simp; omega), hpos]
          rw [hlen]
          cases toks L (l.pos + n) ls <;> rfl
      | _ => simp [toks, ht]

theorem lex_spec (L : Lib) {s : List Byte} {ls rest} (h : Lexemes s ls rest) :
    lex L s = toks L 0 ls >>= fun ts => .ok (ts, endOf (steps (Lex.start s) ls)) :=
  lexAll_spec L h (Lex.start s) _ rfl rfl (Nat.lt_succ_self _)

/-! ### Integer literals -/

theorem digitLoop_ok {ds : List Byte} (hd : ∀ d ∈ ds, isDigit d = true) : ∀ (val : Nat) (seen : Bool),
    (seen = true ∨ ds ≠ []) → val < 2^63 →
    digitLoop ds val seen =
      if val * 10 ^ ds.length + digitsVal ds < 2^63 then
        .ok (some ((val * 10 ^ ds.length + digitsVal ds : Nat) : Int))
      else .ub "signed overflow" := by
  induction ds with
  | nil =>
    intro val seen hs hv
    have : seen = true := by simpa using hs
    subst this
    simp only [digitLoop, digitsVal, List.length_nil, Nat.pow_zero, Nat.mul_one, Nat.add_zero, if_true]
    rw [if_pos hv]
  | cons d ds ih =>
    intro val seen _ hv
    have hdd : isDigit d = true := hd d (by simp)
    have hdig : 48#8 ≤ d ∧ d ≤ 57#8 := by simpa [isDigit] using hdd
    have hn : 48 ≤ d.toNat ∧ d.toNat ≤ 57 := by
      obtain ⟨h1, h2⟩ := hdig
      exact ⟨BitVec.le_def.mp h1, BitVec.le_def.mp h2⟩
    have hkey : val * 10 ^ (d :: ds).length + digitsVal (d :: ds) =
        (val * 10 + (d.toNat - 48)) * 10 ^ ds.length + digitsVal ds := by
      simp only [List.length_cons, digitsVal, Nat.pow_succ, Nat.add_mul]
      rw [← Nat.add_assoc]
      congr 2
      rw [Nat.mul_assoc, Nat.mul_comm (10 ^ ds.length) 10]
    have hmono : val * 10 + (d.toNat - 48) ≤ val * 10 ^ (d :: ds).length + digitsVal (d :: ds) := by
      rw [hkey]
      have : 1 ≤ 10 ^ ds.length := Nat.one_le_pow _ _ (by omega)
      calc val * 10 + (d.toNat - 48) = (val * 10 + (d.toNat - 48)) * 1 := by omega
        _ ≤ (val * 10 + (d.toNat - 48)) * 10 ^ ds.length := Nat.mul_le_mul_left _ this
        _ ≤ _ := Nat.le_add_right _ _
    rw [digitLoop, if_pos hdig]
    have hcast : (val : Int) * 10 + ((d.toNat : Int) - 48) = ((val * 10 + (d.toNat - 48) : Nat) : Int) := by
      omega
    simp only [hcast]
    by_cases h1 : (2:Int)^63 ≤ (val : Int) * 10
    · rw [if_pos h1, if_neg (by omega)]
    · rw [if_neg h1]
      by_cases h2 : (2:Int)^63 ≤ ((val * 10 + (d.toNat - 48) : Nat) : Int)
      · rw [if_pos h2, if_neg (by omega)]
      · rw [if_neg h2, hkey]
        exact ih (fun x hx => hd x (by simp [hx])) (val * 10 + (d.toNat - 48)) true (Or.inl rfl) (by omega)

theorem digit_ne_sign {d : Byte} (h : isDigit d = true) : d ≠ 45#8 ∧ d ≠ 43#8 := by
  constructor <;> (intro hh; subst hh; revert h; decide)

/-- `parse_integer` on a literal: exact below 2^63 in magnitude, undefined from there on. -/
theorem parseInteger_spec {t : List Byte} {v : Int} (h : IntText t v) :
    parseInteger t = if v.natAbs < 2^63 then .ok (BitVec.ofInt 64 v) else .ub "signed overflow" := by
  have base : ∀ ds : List Byte, ds ≠ [] → (∀ d ∈ ds, isDigit d = true) →
      digitLoop ds 0 false = if digitsVal ds < 2^63 then .ok (some ((digitsVal ds : Nat) : Int))
        else .ub "signed overflow" := by
    intro ds hne hd
    have := digitLoop_ok hd 0 false (Or.inr hne) (by omega)
    simpa using this
  cases h with
  | plain hne hd =>
    cases t with
    | nil => exact absurd rfl hne
    | cons d ds =>
      obtain ⟨h1, h2⟩ := digit_ne_sign (hd d (by simp))
      have hp : parseInteger (d :: ds) = (digitLoop (d :: ds) 0 false >>= fun v => match v with
          | none => .trap "failed to parse integer"
          | some v => pure (BitVec.ofInt 64 v)) := by
        unfold parseInteger
        split
        rename_i heq
        split at heq
        · rename_i e; injection e with e; exact absurd e h1
        · rename_i e; injection e with e; exact absurd e h2
        · injection heq with e1 e2; subst e1; subst e2; rfl
      rw [hp, base _ hne hd, Int.natAbs_natCast]
      split <;> simp
  | @plus ds hne hd =>
    show (do let v ← digitLoop ds 0 false; _) = _
    rw [base ds hne hd, Int.natAbs_natCast]
    split <;> simp
  | @minus ds hne hd =>
    show (do let v ← digitLoop ds 0 false; _) = _
    rw [base ds hne hd, Int.natAbs_neg, Int.natAbs_natCast]
    split <;> simp

end Ab.Edn
