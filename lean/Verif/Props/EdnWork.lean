import Verif.Proof.EdnWork
/-! Property theorems C105: how much work lexing is. -/
namespace Ab.Edn
open Re Spec Work

/-- The bytes the scanner looks at for one lexeme: those it reads, and the one at which no rule can go on. -/
def looked (s : List Byte) : Nat := (scan rules s).read + if (scan rules s).stuck then 1 else 0

/-- The bytes looked at while a text is divided into lexemes, each scan starting where the last match ended, as `next` does
(Model/EdnLexer.lean). A byte counts as often as it is looked at. -/
def workFuel : Nat → List Byte → Nat
  | 0, _ => 0
  | fuel + 1, s =>
    if s = [] then 0
    else looked s + match (scan rules s).best with
      | none => 0
      | some (_, n) => workFuel fuel (s.drop n)

@[inherit_doc workFuel]
def work (s : List Byte) : Nat := workFuel (s.length + 1) s

theorem looked_le (s : List Byte) : looked s ≤ s.length := by
  obtain ⟨_, h1, _, h3⟩ := scan_spec rules s
  unfold looked
  cases hs : (scan rules s).stuck with
  | false => simpa using h1
  | true =>
    have := (h3 hs).1
    simp; omega

/-- No zero is directly followed by a digit. -/
def NoZeros : List (Rule × List Byte) → List Byte → Prop
  | [], _ => True
  | (r, t) :: ls, rest =>
    (r = .integer → IntText t 0 → ∀ d y, (ls.map (·.2)).flatten ++ rest = d :: y → isDigit d = false) ∧ NoZeros ls rest

theorem lexemes_flatten {s : List Byte} {ls rest} (h : Lexemes s ls rest) : (ls.map (·.2)).flatten ++ rest = s :=
  (lexemes_text h).1.symm

theorem work_linear {s : List Byte} {ls rest} (h : Lexemes s ls rest) : ∀ (fuel k : Nat), k ≤ s.length →
    (∀ j, j < k → s[j]? ≠ some 34#8) → NoZeros ls rest → workFuel fuel s ≤ 4 * s.length + (s.length - k) := by
  induction h with
  | @done s hn =>
    intro fuel k hk hq _
    cases fuel with
    | zero => exact Nat.zero_le _
    | succ fuel =>
      rw [workFuel]
      split
      · exact Nat.zero_le _
      · have h1 := (scan_spec rules s).1
        have h2 := looked_le s
        cases hb : (scan rules s).best with
        | none => simp only; omega
        | some x =>
          rw [hb] at h1
          exact absurd hn (longest_not_noMatch h1)
  | @step s r n ls rest hl hr ih =>
    intro fuel k hk hq hz
    cases fuel with
    | zero => exact Nat.zero_le _
    | succ fuel =>
      rw [workFuel]
      split
      · exact Nat.zero_le _
      · rw [scan_of_longest hl]
        dsimp only
        have hpos := hl.pos
        have hle := hl.le
        have hdrop : (s.drop n).length = s.length - n := List.length_drop
        rcases scan_near hl with h | ⟨h1, h2, h3⟩ | ⟨h1, h2, d, y, h3, h4⟩
        · have hlk : looked s ≤ n + 3 := by unfold looked; split <;> omega
          have := ih fuel (k - n) (by omega) (by
            intro j hj
            rw [List.getElem?_drop]
            exact hq (n + j) (by omega)) hz.2
          omega
        · have hk0 : k = 0 := by
            cases k with
            | zero => rfl
            | succ k =>
              have := hq 0 (by omega)
              rw [← List.head?_eq_getElem?, h2] at this
              exact absurd rfl this
          have hlk : looked s ≤ (scan rules s).read + 1 := by unfold looked; split <;> omega
          have hRs := (scan_spec rules s).2.1
          have hnR := scan_read hl
          have := ih fuel ((scan rules s).read - n) (by omega) (by
            intro j hj
            rw [List.getElem?_drop]
            exact h3 (n + j) (by omega) (by omega)) hz.2
          omega
        · have := hz.1 h1 h2 d y (by rw [lexemes_flatten hr, h3])
          rw [this] at h4; cases h4

theorem work_quadratic : ∀ (fuel : Nat) (s : List Byte), 2 * workFuel fuel s ≤ s.length * (s.length + 1)
  | 0, s => Nat.zero_le _
  | fuel + 1, s => by
    rw [workFuel]
    split
    · exact Nat.zero_le _
    · have h1 := (scan_spec rules s).1
      have h2 := looked_le s
      cases hb : (scan rules s).best with
      | none =>
        dsimp only
        have : s.length * 1 ≤ s.length * s.length := by
          rcases Nat.eq_zero_or_pos s.length with h | h
          · rw [h]; exact Nat.le_refl _
          · exact Nat.mul_le_mul_left _ h
        rw [Nat.mul_succ]; omega
      | some x =>
        obtain ⟨k, n⟩ := x
        rw [hb] at h1
        dsimp only at h1 ⊢
        have hpos := h1.pos
        have hle := h1.le
        have ih := work_quadratic fuel (s.drop n)
        rw [List.length_drop] at ih
        have : (s.length - n) * (s.length - n + 1) ≤ (s.length - 1) * s.length :=
          Nat.mul_le_mul (by omega) (by omega)
        have e : s.length * (s.length + 1) = (s.length - 1) * s.length + 2 * s.length := by
          obtain ⟨m, hm⟩ : ∃ m, s.length = m + 1 := ⟨s.length - 1, by omega⟩
          rw [hm]; simp only [Nat.add_sub_cancel]; rw [Nat.mul_comm m (m + 1), Nat.mul_comm 2 (m + 1), ← Nat.mul_add]
        omega

/-! ### Zeros -/

theorem zeros_longest (n : Nat) : Longest rules (List.replicate (n + 1) 48#8) .integer 1 := by
  have hz : ∀ m x, x ∈ (List.replicate (n + 1) 48#8).take m → x = 48#8 := fun m x hx =>
    List.eq_of_mem_replicate (List.mem_of_mem_take hx)
  have hno : ∀ m (q : Rule × Re), 0 < m → m ≤ n + 1 → q ∈ rules → Lang q.2 ((List.replicate (n + 1) 48#8).take m) →
      q = (.integer, integerRe) ∧ m = 1 := by
    intro m q hm hle hq hl
    obtain ⟨c, w, hcw⟩ := take_cons (s := List.replicate (n + 1) 48#8) hm (by simpa using hle)
    have hc : c = 48#8 := hz m c (by rw [hcw]; simp)
    rcases starts_number hq (Or.inl hc) (lang_first hl c w hcw) with rfl | rfl | ⟨_, h⟩
    · rcases real_has hl with h | h | h
      · exact absurd (hz _ _ h) (by decide)
      · exact absurd (hz _ _ h) (by decide)
      · exact absurd (hz _ _ h) (by decide)
    · refine ⟨rfl, ?_⟩
      match m with
      | 1 => rfl
      | m + 2 =>
        exfalso
        match n with
        | 0 => omega
        | n + 1 =>
          have e : (List.replicate (n + 1 + 1) 48#8).take (m + 2) ++ [] = [] ++ 48#8 :: 48#8 :: (List.replicate n 48#8).take m := by
            simp [List.replicate_succ]
          obtain ⟨_, h⟩ := integer_zero hl (sign_iff.2 (Or.inl rfl)) e
          cases h
    · exact absurd hc h
  refine ⟨by omega, by simp, ⟨4, integerRe, rfl, ?_, ?_⟩, ?_⟩
  · exact .seq (s := []) (sign_iff.2 (Or.inl rfl)) (.altL (lang_ch.2 (by simp [List.replicate_succ])))
  · intro j q hj hq hl
    obtain ⟨rfl, _⟩ := hno 1 q (by omega) (by omega) (List.mem_of_getElem? hq) hl
    match j, hj with
    | 0, _ | 1, _ | 2, _ | 3, _ => simp [rules] at hq
  · intro m q hm hle hq hl
    have := (hno m q (by omega) (by simpa using hle) hq hl).2
    omega

theorem zeros_looked (n : Nat) : looked (List.replicate (n + 1) 48#8) = n + 1 := by
  obtain ⟨_, h1, h2, h3⟩ := scan_spec rules (List.replicate (n + 1) 48#8)
  unfold looked
  cases hs : (scan rules (List.replicate (n + 1) 48#8)).stuck with
  | false => rw [h2 hs]; simp
  | true =>
    exfalso
    obtain ⟨h4, h5⟩ := h3 hs
    have hpt : Lang realPtRe [46#8, 48#8] := cons_iff.2 ⟨46#8, [48#8], rfl, rfl, digits_iff.2 ⟨by simp, by decide⟩⟩
    have hds : ∀ ds, Lang (plus digitRe) ds → Lang realRe (ds ++ [46#8, 48#8]) := fun ds h =>
      .seq (s := []) (sign_iff.2 (Or.inl rfl)) (.seq h (.altL hpt))
    refine h5 (.real, realRe) (by simp [rules]) [46#8, 48#8] (hds _ (digits_iff.2 ⟨?_, ?_⟩))
    · obtain ⟨c, w, hc⟩ := take_cons (s := List.replicate (n + 1) 48#8)
        (n := (scan rules (List.replicate (n + 1) 48#8)).read + 1) (by omega) (by omega)
      rw [hc]; simp
    · intro c hc
      rw [List.eq_of_mem_replicate (List.mem_of_mem_take hc)]; rfl

theorem zeros_work : ∀ (n fuel : Nat), n < fuel → 2 * workFuel fuel (List.replicate n 48#8) = n * (n + 1)
  | 0, fuel + 1, _ => rfl
  | n + 1, fuel + 1, h => by
    rw [workFuel, if_neg (by simp [List.replicate_succ]), zeros_looked, scan_of_longest (zeros_longest n)]
    dsimp only
    rw [show (List.replicate (n + 1) 48#8).drop 1 = List.replicate n 48#8 from rfl]
    have ih := zeros_work n fuel (by omega)
    rw [Nat.mul_add, ih, Nat.mul_comm n (n + 1), Nat.mul_comm 2 (n + 1), ← Nat.mul_add, Nat.add_comm 2 n]

theorem zeros_lexemes : ∀ n, Lexemes (List.replicate n 48#8) (List.replicate n (.integer, [48#8])) []
  | 0 => .done noMatch_nil
  | n + 1 => .step (zeros_longest n) (zeros_lexemes n)

theorem zeros_toks (L : Lib) : ∀ (n pos : Nat), ∃ ts, toks L pos (List.replicate n (.integer, [48#8])) = .ok ts ∧ ts.length = n
  | 0, _ => ⟨[], rfl, rfl⟩
  | n + 1, pos => by
    obtain ⟨ts, h1, h2⟩ := zeros_toks L n (pos + 1)
    refine ⟨⟨.integer 0#64, [48#8], pos, pos + 1⟩ :: ts, ?_, by simp [h2]⟩
    rw [List.replicate_succ, toks]
    have : tokenOf L .integer [48#8] = .ok (some (.integer 0#64)) := rfl
    rw [this]
    simp only [Outcome.ok_bind, List.length_singleton, h1]
    rfl

/-! ### The property -/

theorem noZeros_of {L : Lib} : ∀ {ls : List (Rule × List Byte)} {pre rest : List Byte} {ts : List Token},
    TokensOf L pre.length ls ts →
    (∀ t ∈ ts, t.kind = .integer 0#64 → ∀ d, (pre ++ (ls.map (·.2)).flatten ++ rest)[t.hi]? = some d → isDigit d = false) →
    NoZeros ls rest
  | [], _, _, _, _, _ => trivial
  | (r, t) :: ls, pre, rest, ts, h, hz => by
    have e : pre ++ (((r, t) :: ls).map (·.2)).flatten ++ rest = (pre ++ t) ++ (ls.map (·.2)).flatten ++ rest := by simp
    rw [e] at hz
    have hlen : pre.length + t.length = (pre ++ t).length := by simp
    rw [TokensOf] at h
    split at h
    · rename_i hs
      rw [hlen] at h
      refine ⟨fun hr => ?_, noZeros_of h hz⟩
      rw [hr] at hs
      rcases hs with hs | hs <;> cases hs
    · obtain ⟨k, ts', rfl, hk, h⟩ := h
      rw [hlen] at h
      refine ⟨?_, noZeros_of h (fun x hx => hz x (by simp [hx]))⟩
      intro hr ht d y hd
      subst hr
      have hk' : tokenOf L .integer t = .ok (some (.integer 0#64)) := by
        show (parseInteger t >>= fun v => pure (some (Kind.integer v))) = _
        rw [parseInteger_spec ht]; rfl
      rw [hk'] at hk
      injection hk with hk
      injection hk with hk
      refine hz _ (by simp; left; rfl) hk.symm d ?_
      show ((pre ++ t) ++ (ls.map (·.2)).flatten ++ rest)[pre.length + t.length]? = some d
      rw [hlen, List.append_assoc, hd, List.getElem?_append_right (Nat.le_refl _), Nat.sub_self]
      rfl

/-- **C105** is false of the code: whatever the factor `c`, there is a text – `n` zeros, which is `n` tokens – whose bytes are
looked at more than `c` times each on average. -/
theorem C105_negation (L : Lib) : ¬ ∃ c, ∀ s ts l, lex L s = .ok (ts, l) → work s ≤ c * s.length := by
  rintro ⟨c, h⟩
  obtain ⟨ts, h1, _⟩ := zeros_toks L (2 * c + 1) 0
  have h2 := lex_spec L (zeros_lexemes (2 * c + 1))
  rw [h1, Outcome.ok_bind] at h2
  have h3 := h _ _ _ h2
  have h4 := zeros_work (2 * c + 1) (2 * c + 1 + 1) (by omega)
  have h5 : work (List.replicate (2 * c + 1) 48#8) = workFuel (2 * c + 1 + 1) (List.replicate (2 * c + 1) 48#8) := by
    unfold work; rw [List.length_replicate]
  rw [List.length_replicate, h5] at h3
  have h6 : 2 * (c * (2 * c + 1)) = (2 * c + 1) * (2 * c) := by rw [← Nat.mul_assoc, Nat.mul_comm]
  rw [Nat.mul_succ] at h4
  have h7 : (2 * c + 1) * (2 * c + 1) = (2 * c + 1) * (2 * c) + (2 * c + 1) := Nat.mul_succ _ _
  omega

/-- **C105** for the texts in which no zero, as a token, is directly followed by a digit: no more than five looks per byte. -/
theorem C105_linear_partial (L : Lib) (s : List Byte) (ts : List Token) (l : Lex) (h : lex L s = .ok (ts, l))
    (hz : ∀ t ∈ ts, t.kind = .integer 0#64 → ∀ d, s[t.hi]? = some d → ¬ (48#8 ≤ d ∧ d ≤ 57#8)) : work s ≤ 5 * s.length := by
  obtain ⟨ls, rest, hl⟩ := lexemes_exists s
  rw [lex_spec L hl] at h
  obtain ⟨ts', h1, h2⟩ := Outcome.bind_eq_ok.1 h
  injection h2 with h2
  injection h2 with h2 _
  subst h2
  have ht := toks_tokensOf h1
  have hn : NoZeros ls rest := noZeros_of (pre := []) ht (by
    intro t htm hk d hd
    rw [List.nil_append, lexemes_flatten hl] at hd
    have := hz t htm hk d hd
    simpa [isDigit] using this)
  have := work_linear hl (s.length + 1) 0 (Nat.zero_le _) (by intro j hj; omega) hn
  unfold work; omega

/-- **C105**, what holds of all texts: a byte is looked at no more often than there are bytes up to it, so the work is at most
quadratic – and the texts of `C105_negation` attain that. -/
theorem C105_quadratic_partial (s : List Byte) : 2 * work s ≤ s.length * (s.length + 1) ∧
    ∀ n, 2 * work (List.replicate n 48#8) = n * (n + 1) := by
  refine ⟨work_quadratic _ s, fun n => ?_⟩
  unfold work
  rw [List.length_replicate]
  exact zeros_work n (n + 1) (Nat.lt_succ_self _)

/-- `(a/b 10 0 "\"` – a text of the kind `C105_linear_partial` speaks of, with a zero, and a string beyond which the scanner
looks. -/
example (L : Lib) : ∃ ts l, lex L [40#8, 97#8, 47#8, 98#8, 32#8, 49#8, 48#8, 32#8, 48#8, 32#8, 34#8, 92#8, 34#8, 32#8, 41#8] = .ok (ts, l) ∧
    ts.length = 6 ∧
    (∀ t ∈ ts, t.kind = .integer 0#64 → ∀ d, [40#8, 97#8, 47#8, 98#8, 32#8, 49#8, 48#8, 32#8, 48#8, 32#8, 34#8, 92#8, 34#8, 32#8, 41#8][t.hi]? = some d →
      ¬ (48#8 ≤ d ∧ d ≤ 57#8)) := by
  refine ⟨_, _, rfl, rfl, ?_⟩
  intro t ht
  simp only [List.mem_cons, List.not_mem_nil, or_false] at ht
  rcases ht with rfl | rfl | rfl | rfl | rfl | rfl <;> simp
  intro d hd
  have : d = 32#8 := by
    have h : [32#8, 34#8, 92#8, 34#8, 32#8, 41#8][0]? = some d := hd
    simpa using h.symm
  rw [this]; decide

end Ab.Edn
