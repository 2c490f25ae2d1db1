import Verif.Proof.EdnLexer3
/-! How far the scanner of the EDN lexer looks ahead. -/
namespace Ab.Re
open Spec

/-- The bytes a scan has read can be continued to a match. -/
theorem scanFrom_viable (rules : List (K × Re)) (hi : ∀ q ∈ rules, Inhab q.2) (rest : List Byte) :
    ∀ (pre : List Byte) (best : Option (K × Nat)), (pre ≠ [] → ∃ q ∈ rules, ∃ v, Lang q.2 (pre ++ v)) →
      let n := (scanFrom (after rules pre) pre.length best rest).read
      n ≠ 0 → ∃ q ∈ rules, ∃ v, Lang q.2 ((pre ++ rest).take n ++ v) := by
  induction rest with
  | nil =>
    intro pre best hv n hn
    have : n = pre.length := rfl
    rw [this, List.append_nil, List.take_length]
    exact hv (by intro h; rw [h] at this; exact hn this)
  | cons b bs ih =>
    intro pre best hv
    simp only [scanFrom, after_snoc]
    split
    · intro hn
      rw [List.take_left]
      exact hv (by intro h; rw [h] at hn; exact hn rfl)
    · rename_i hd
      have e : pre.length + 1 = (pre ++ [b]).length := by simp
      rw [e]
      have hv' : pre ++ [b] ≠ [] → ∃ q ∈ rules, ∃ v, Lang q.2 (pre ++ [b] ++ v) := by
        intro _
        have : ∃ q ∈ rules, dead (derivs (pre ++ [b]) q.2) = false := by
          apply Decidable.byContradiction
          intro hno
          apply hd
          rw [List.all_eq_true]
          intro x hx
          obtain ⟨q, hq, rfl⟩ := List.mem_map.1 hx
          cases hdq : dead (derivs (pre ++ [b]) q.2) with
          | true => rfl
          | false => exact absurd ⟨q, hq, hdq⟩ hno
        obtain ⟨q, hq, hdq⟩ := this
        have hin : ∀ (s : List Byte) (r : Re), Inhab r → Inhab (derivs s r) := by
          intro s
          induction s with
          | nil => intro r h; exact h
          | cons c s ih => intro r h; exact ih _ (deriv_inhab c h)
        obtain ⟨v, hl⟩ := not_dead_lang (hin _ _ (hi q hq)) hdq
        exact ⟨q, hq, v, derivs_iff.1 hl⟩
      intro hn
      have := ih (pre ++ [b]) _ hv' hn
      rw [List.append_assoc] at this
      exact this

theorem scan_viable (rules : List (K × Re)) (hi : ∀ q ∈ rules, Inhab q.2) (s : List Byte) (hn : (scan rules s).read ≠ 0) :
    ∃ q ∈ rules, ∃ v, Lang q.2 (s.take (scan rules s).read ++ v) := by
  have := scanFrom_viable rules hi s [] none (fun h => absurd rfl h)
  rw [after_nil] at this
  exact this hn

/-- A match is read. -/
theorem scan_read {rules : List (K × Re)} {s : List Byte} {k : K} {n : Nat} (h : Longest rules s k n) :
    n ≤ (scan rules s).read := by
  obtain ⟨_, h1, h2, h3⟩ := scan_spec rules s
  cases hs : (scan rules s).stuck with
  | false => rw [h2 hs]; exact h.le
  | true =>
    apply Decidable.byContradiction
    intro hlt
    obtain ⟨i, r, h4, h5, _⟩ := h.first
    have := (h3 hs).2 (k, r) (List.mem_of_getElem? h4) ((s.take n).drop ((scan rules s).read + 1))
    apply this
    have e : s.take ((scan rules s).read + 1) = (s.take n).take ((scan rules s).read + 1) := by
      rw [List.take_take, Nat.min_eq_left (by omega)]
    rw [e, List.take_append_drop]
    exact h5

end Ab.Re

namespace Ab.Edn.Work
open Re Spec

theorem rules_inhab : ∀ q ∈ rules, Inhab q.2 := by
  intro q hq
  simp only [rules, List.mem_cons, List.not_mem_nil, or_false] at hq
  rcases hq with h | h | h | h | h | h | h | h | h | h | h | h | h | h | h | h <;> subst h
  all_goals
    simp only [lit, realRe, integerRe, keywordRe, symbolRe, nameRe, stringRe, wsRe, commentRe, realPtRe, realExRe, signRe, digitRe,
      opt, plus, ch, Inhab, true_and]
  all_goals repeat' apply And.intro
  all_goals first
    | exact ⟨_, beq_self_eq_true _⟩
    | exact ⟨49#8, rfl⟩
    | exact ⟨46#8, rfl⟩
    | exact ⟨97#8, rfl⟩
    | exact ⟨110#8, rfl⟩
    | exact ⟨32#8, rfl⟩

theorem star_iff {p : Byte → Bool} {s : List Byte} : Lang (.star (.cls p)) s ↔ ∀ c ∈ s, p c = true :=
  ⟨fun h c hc => by simpa [uses] using lang_uses h c hc, star_cls⟩

theorem cons_iff {p : Byte → Bool} {b : Re} {s : List Byte} :
    Lang (.seq (.cls p) b) s ↔ ∃ c r, s = c :: r ∧ p c = true ∧ Lang b r := by
  constructor
  · intro h
    obtain ⟨x, r, rfl, h1, h2⟩ := lang_seq h
    obtain ⟨c, rfl, hc⟩ := lang_cls h1
    exact ⟨c, r, rfl, hc, h2⟩
  · rintro ⟨c, r, rfl, h1, h2⟩
    exact .seq (s := [c]) (.cls h1) h2

theorem opt_iff {a : Re} {s : List Byte} : Lang (opt a) s ↔ s = [] ∨ Lang a s := by
  constructor
  · intro h
    rcases lang_alt h with h | h
    · cases h; exact Or.inl rfl
    · exact Or.inr h
  · rintro (rfl | h)
    · exact .altL .eps
    · exact .altR h

theorem nameRe_iff' {s : List Byte} : Lang nameRe s ↔
    ∃ c r, s = c :: r ∧ (((isAlpha c || isMisc c) = true ∧ ∀ d ∈ r, isNameChar d = true) ∨
      (isNumChar c = true ∧ ∃ d r', r = d :: r' ∧ (isAlpha d || isSpecial d) = true ∧ ∀ x ∈ r', isNameChar x = true)) := by
  constructor
  · intro h
    rcases lang_alt h with h | h
    · obtain ⟨c, r, rfl, h1, h2⟩ := cons_iff.1 h
      exact ⟨c, r, rfl, Or.inl ⟨h1, star_iff.1 h2⟩⟩
    · obtain ⟨c, r, rfl, h1, h2⟩ := cons_iff.1 h
      obtain ⟨d, r', rfl, h3, h4⟩ := cons_iff.1 h2
      exact ⟨c, _, rfl, Or.inr ⟨h1, d, r', rfl, h3, star_iff.1 h4⟩⟩
  · rintro ⟨c, r, rfl, h | h⟩
    · exact .altL (cons_iff.2 ⟨c, r, rfl, h.1, star_iff.2 h.2⟩)
    · obtain ⟨h1, d, r', rfl, h2, h3⟩ := h
      exact .altR (cons_iff.2 ⟨c, _, rfl, h1, cons_iff.2 ⟨d, r', rfl, h2, star_iff.2 h3⟩⟩)

/-- What can be continued to a name is one, or a single byte. -/
theorem name_prefix {u v : List Byte} (h : Lang nameRe (u ++ v)) : u.length ≤ 1 ∨ Lang nameRe u := by
  match u with
  | [] => exact Or.inl (Nat.zero_le _)
  | [_] => exact Or.inl (Nat.le_refl _)
  | c :: d :: u =>
    right
    obtain ⟨c', r, he, h | h⟩ := nameRe_iff'.1 h
    · simp only [List.cons_append, List.cons.injEq] at he
      obtain ⟨rfl, rfl⟩ := he
      exact nameRe_iff'.2 ⟨c, _, rfl, Or.inl ⟨h.1, fun x hx => h.2 x (by
        simp only [List.mem_cons, List.mem_append] at hx ⊢
        rcases hx with hx | hx
        · exact Or.inl hx
        · exact Or.inr (Or.inl hx))⟩⟩
    · obtain ⟨h1, d', r', rfl, h2, h3⟩ := h
      simp only [List.cons_append, List.cons.injEq] at he
      obtain ⟨rfl, rfl, rfl⟩ := he
      exact nameRe_iff'.2 ⟨c, _, rfl, Or.inr ⟨h1, d, u, rfl, h2, fun x hx => h3 x (List.mem_append_left _ hx)⟩⟩

theorem symbol_name {s : List Byte} (h : Lang nameRe s) : Lang symbolRe s :=
  .seq (s := []) (opt_iff.2 (Or.inl rfl)) h

/-- A match at most two bytes shorter. -/
def Near (r : Re) (u : List Byte) : Prop := ∃ m, 0 < m ∧ m ≤ u.length ∧ u.length ≤ m + 2 ∧ Lang r (u.take m)

theorem Near.of {r : Re} {a b : List Byte} (h : Lang r a) (ha : a ≠ []) (hb : b.length ≤ 2) : Near r (a ++ b) := by
  refine ⟨a.length, List.length_pos_iff.2 ha, by simp, by simp; omega, ?_⟩
  rw [List.take_left]; exact h

theorem Near.self {r : Re} {a : List Byte} (h : Lang r a) (ha : a ≠ []) : Near r a := by
  have := Near.of (b := []) h ha (by simp)
  rwa [List.append_nil] at this

theorem name_ne {s : List Byte} (h : Lang nameRe s) : s ≠ [] := by
  obtain ⟨c, r, rfl, _⟩ := nameRe_iff'.1 h
  simp

theorem symbol_prefix {u v : List Byte} (h : Lang symbolRe (u ++ v)) : u.length ≤ 1 ∨ Near symbolRe u := by
  obtain ⟨a, b, he, h1, h2⟩ := lang_seq h
  rcases opt_iff.1 h1 with rfl | h1
  · rw [List.nil_append] at he
    rw [← he] at h2
    rcases name_prefix h2 with h | h
    · exact Or.inl h
    · exact Or.inr (.self (symbol_name h) (name_ne h))
  · obtain ⟨p, s, rfl, h3, h4⟩ := lang_seq h1
    rw [lang_ch.1 h4] at he
    rw [List.append_assoc] at he
    rcases List.append_eq_append_iff.1 he with ⟨p', hp, _⟩ | ⟨u', hu, hv⟩
    · rw [hp] at h3
      rcases name_prefix h3 with h | h
      · exact Or.inl h
      · exact Or.inr (.self (symbol_name h) (name_ne h))
    · right
      rw [hu]
      match u' with
      | [] => exact .of (symbol_name h3) (name_ne h3) (by simp)
      | [x] => exact .of (symbol_name h3) (name_ne h3) (by simp)
      | [x, y] => exact .of (symbol_name h3) (name_ne h3) (by simp)
      | x :: y :: z :: u' =>
        simp only [List.cons_append, List.cons.injEq, List.nil_append] at hv
        obtain ⟨rfl, hv⟩ := hv
        have hb : b = (y :: z :: u') ++ v := by rw [hv]; rfl
        rw [hb] at h2
        rcases name_prefix h2 with h | h
        · simp at h
        · apply Near.self
          · have : Lang (.seq nameRe (ch 47)) (p ++ [47#8]) := .seq h3 (lang_ch.2 rfl)
            have := Lang.seq (a := opt (.seq nameRe (ch 47))) (opt_iff.2 (Or.inr this)) h
            rw [List.append_assoc] at this
            exact this
          · simp

theorem keyword_prefix {u v : List Byte} (h : Lang keywordRe (u ++ v)) : u.length ≤ 2 ∨ Near keywordRe u := by
  match u with
  | [] => exact Or.inl (by simp)
  | c :: u =>
    obtain ⟨c', r, he, h1, h2⟩ := cons_iff.1 h
    simp only [List.cons_append, List.cons.injEq] at he
    obtain ⟨rfl, rfl⟩ := he
    rcases symbol_prefix h2 with h | ⟨m, h3, h4, h5, h6⟩
    · exact Or.inl (by simp; omega)
    · refine Or.inr ⟨m + 1, by omega, by simp; omega, by simp; omega, ?_⟩
      rw [List.take_succ_cons]
      exact cons_iff.2 ⟨c, _, rfl, h1, h6⟩

/-! ### Numbers -/

theorem sign_iff {s : List Byte} : Lang signRe s ↔ s = [] ∨ s = [43#8] ∨ s = [45#8] := by
  unfold signRe
  rw [opt_iff]
  constructor
  · rintro (h | h)
    · exact Or.inl h
    · rcases lang_alt h with h | h
      · exact Or.inr (Or.inl (lang_ch.1 h))
      · exact Or.inr (Or.inr (lang_ch.1 h))
  · rintro (h | h | h)
    · exact Or.inl h
    · exact Or.inr (.altL (lang_ch.2 h))
    · exact Or.inr (.altR (lang_ch.2 h))

theorem digits_iff {s : List Byte} : Lang (plus digitRe) s ↔ s ≠ [] ∧ ∀ c ∈ s, isDigit c = true := by
  unfold plus digitRe
  rw [cons_iff]
  constructor
  · rintro ⟨c, r, rfl, h1, h2⟩
    refine ⟨by simp, ?_⟩
    intro x hx
    rcases List.mem_cons.1 hx with rfl | hx
    · exact h1
    · exact star_iff.1 h2 x hx
  · rintro ⟨h1, h2⟩
    match s with
    | [] => exact absurd rfl h1
    | c :: r => exact ⟨c, r, rfl, h2 c (by simp), star_iff.2 (fun x hx => h2 x (by simp [hx]))⟩

theorem pt_prefix {t v : List Byte} (h : Lang realPtRe (t ++ v)) : t = [] ∨ t = [46#8] ∨ Lang realPtRe t := by
  match t with
  | [] => exact Or.inl rfl
  | c :: t =>
    obtain ⟨c', r, he, h1, h2⟩ := cons_iff.1 h
    simp only [List.cons_append, List.cons.injEq] at he
    obtain ⟨rfl, rfl⟩ := he
    have hc : c = 46#8 := by simpa using h1
    match t with
    | [] => exact Or.inr (Or.inl (by rw [hc]))
    | d :: t =>
      exact Or.inr (Or.inr (cons_iff.2 ⟨c, _, rfl, h1, digits_iff.2 ⟨by simp, fun x hx =>
        (digits_iff.1 h2).2 x (List.mem_append_left _ hx)⟩⟩))

theorem ex_prefix {t v : List Byte} (h : Lang realExRe (t ++ v)) :
    t = [] ∨ (∃ e, (e = 101#8 ∨ e = 69#8) ∧ (t = [e] ∨ t = [e, 43#8] ∨ t = [e, 45#8])) ∨ Lang realExRe t := by
  obtain ⟨e', r, he, h1, h2⟩ := lang_seq h
  have hE : ∃ e, e' = [e] ∧ (e = 101#8 ∨ e = 69#8) := by
    rcases lang_alt h1 with h | h
    · exact ⟨_, lang_ch.1 h, Or.inl rfl⟩
    · exact ⟨_, lang_ch.1 h, Or.inr rfl⟩
  obtain ⟨e, rfl, hee⟩ := hE
  match t with
  | [] => exact Or.inl rfl
  | c :: t =>
    right
    simp only [List.cons_append, List.cons.injEq, List.nil_append] at he
    obtain ⟨rfl, he⟩ := he
    obtain ⟨sg, ds, rfl, h3, h4⟩ := lang_seq h2
    rcases List.append_eq_append_iff.1 he with ⟨s', hs, _⟩ | ⟨t', ht, hv⟩
    · left
      refine ⟨c, hee, ?_⟩
      rcases sign_iff.1 h3 with h | h | h
      · rw [hs] at h
        have := (List.append_eq_nil_iff.1 h).1
        rw [this]; exact Or.inl rfl
      · rw [hs] at h
        match t with
        | [] => exact Or.inl rfl
        | [x] => simp at h; rw [h.1]; exact Or.inr (Or.inl rfl)
        | x :: y :: t => simp at h
      · rw [hs] at h
        match t with
        | [] => exact Or.inl rfl
        | [x] => simp at h; rw [h.1]; exact Or.inr (Or.inr rfl)
        | x :: y :: t => simp at h
    · match t' with
      | [] =>
        left
        rw [List.append_nil] at ht
        refine ⟨c, hee, ?_⟩
        rcases sign_iff.1 h3 with h | h | h
        · rw [ht, h]; exact Or.inl rfl
        · rw [ht, h]; exact Or.inr (Or.inl rfl)
        · rw [ht, h]; exact Or.inr (Or.inr rfl)
      | d :: t' =>
        right
        rw [ht]
        refine .seq (s := [c]) h1 (.seq h3 (digits_iff.2 ⟨by simp, fun x hx => (digits_iff.1 h4).2 x ?_⟩))
        rw [hv]; exact List.mem_append_left _ hx

/-- The fractional and exponent parts. -/
def tailRe : Re := .alt realPtRe (.alt realExRe (.seq realPtRe realExRe))

/-- The beginnings of a part that are no match. -/
def Stub (b : List Byte) : Prop :=
  b = [] ∨ b = [46#8] ∨ ∃ e, (e = 101#8 ∨ e = 69#8) ∧ (b = [e] ∨ b = [e, 43#8] ∨ b = [e, 45#8])

theorem tail_prefix {t v : List Byte} (h : Lang tailRe (t ++ v)) :
    Stub t ∨ ∃ a b, t = a ++ b ∧ Lang tailRe a ∧ Stub b := by
  have hpt : ∀ {v}, Lang realPtRe (t ++ v) → Stub t ∨ ∃ a b, t = a ++ b ∧ Lang tailRe a ∧ Stub b := by
    intro v h
    rcases pt_prefix h with h | h | h
    · exact Or.inl (Or.inl h)
    · exact Or.inl (Or.inr (Or.inl h))
    · exact Or.inr ⟨t, [], by simp, .altL h, Or.inl rfl⟩
  rcases lang_alt h with h | h
  · exact hpt h
  · rcases lang_alt h with h | h
    · rcases ex_prefix h with h | h | h
      · exact Or.inl (Or.inl h)
      · exact Or.inl (Or.inr (Or.inr h))
      · exact Or.inr ⟨t, [], by simp, .altR (.altL h), Or.inl rfl⟩
    · obtain ⟨p, x, he, h1, h2⟩ := lang_seq h
      rcases List.append_eq_append_iff.1 he with ⟨p', hp, _⟩ | ⟨t', ht, hv⟩
      · rw [hp] at h1; exact hpt h1
      · right
        rw [hv] at h2
        rcases ex_prefix h2 with h | h | h
        · exact ⟨p, t', ht, .altL h1, Or.inl h⟩
        · exact ⟨p, t', ht, .altL h1, Or.inr (Or.inr h)⟩
        · exact ⟨t, [], by simp, ht ▸ .altR (.altR (.seq h1 h)), Or.inl rfl⟩

theorem stub_short {b : List Byte} (h : Stub b) : b.length ≤ 2 := by
  rcases h with rfl | rfl | ⟨e, _, rfl | rfl | rfl⟩ <;> simp

/-- A leading zero and more digits. -/
def Zeros (u : List Byte) : Prop :=
  ∃ sg d r b, Lang signRe sg ∧ u = sg ++ 48#8 :: d :: r ++ b ∧ isDigit d = true ∧ (∀ x ∈ r, isDigit x = true) ∧ Stub b

theorem digit_nonzero : ∀ c : Byte, isDigit c = true → c ≠ 48#8 → decide (49#8 ≤ c ∧ c ≤ 57#8) = true := by decide +kernel

theorem int_of {sg ds : List Byte} (h : Lang signRe sg) (hn : ds ≠ []) (hd : ∀ c ∈ ds, isDigit c = true) :
    Lang integerRe (sg ++ ds) ∨ ∃ d r, ds = 48#8 :: d :: r := by
  match ds with
  | [] => exact absurd rfl hn
  | c :: r =>
    by_cases hc : c = 48#8
    · subst hc
      match r with
      | [] => exact Or.inl (.seq h (.altL (lang_ch.2 rfl)))
      | d :: r => exact Or.inr ⟨d, r, rfl⟩
    · left
      refine .seq h (.altR (cons_iff.2 ⟨c, r, rfl, ?_, star_iff.2 (fun x hx => hd x (by simp [hx]))⟩))
      exact digit_nonzero c (hd c (by simp)) hc

theorem real_prefix {u v : List Byte} (h : Lang realRe (u ++ v)) :
    u.length ≤ 2 ∨ Near realRe u ∨ Near integerRe u ∨ Zeros u := by
  obtain ⟨sg, w, he, h1, h2⟩ := lang_seq h
  have hsg : sg.length ≤ 1 := by rcases sign_iff.1 h1 with h | h | h <;> rw [h] <;> simp
  rcases List.append_eq_append_iff.1 he with ⟨s', hs, _⟩ | ⟨u', hu, hv⟩
  · left
    have := congrArg List.length hs
    simp at this; omega
  · obtain ⟨ds, x, rfl, h3, h4⟩ := lang_seq h2
    obtain ⟨hn, hd⟩ := digits_iff.1 h3
    have key : ∀ {ds b : List Byte}, ds ≠ [] → (∀ c ∈ ds, isDigit c = true) → Stub b → u' = ds ++ b →
        Near integerRe u ∨ Zeros u := by
      intro ds b hn hd hb e
      rw [hu, e, ← List.append_assoc]
      rcases int_of h1 hn hd with h | ⟨d, r, rfl⟩
      · exact Or.inl (.of h (by simp [hn]) (stub_short hb))
      · right
        exact ⟨sg, d, r, b, h1, rfl, hd d (by simp), fun x hx => hd x (by simp [hx]), hb⟩
    rcases List.append_eq_append_iff.1 hv.symm with ⟨d', hd', _⟩ | ⟨t, ht, hx⟩
    · by_cases hz : u' = []
      · left; rw [hu, hz]; simp; omega
      · right; right
        exact key (b := []) hz (fun c hc => hd c (by rw [hd']; exact List.mem_append_left _ hc)) (Or.inl rfl) (by simp)
    · rw [hx] at h4
      rcases tail_prefix h4 with h | ⟨a, b, rfl, h5, h6⟩
      · exact Or.inr (Or.inr (key hn hd h ht))
      · right; left
        rw [hu, ht, show sg ++ (ds ++ (a ++ b)) = (sg ++ (ds ++ a)) ++ b by simp]
        exact .of (.seq h1 (.seq h3 h5)) (by simp [hn]) (stub_short h6)

theorem integer_prefix {u v : List Byte} (h : Lang integerRe (u ++ v)) : u.length ≤ 1 ∨ Near integerRe u := by
  obtain ⟨sg, w, he, h1, h2⟩ := lang_seq h
  have hsg : sg.length ≤ 1 := by rcases sign_iff.1 h1 with h | h | h <;> rw [h] <;> simp
  rcases List.append_eq_append_iff.1 he with ⟨s', hs, _⟩ | ⟨u', hu, hv⟩
  · left
    have := congrArg List.length hs
    simp at this; omega
  · match u' with
    | [] => left; rw [hu]; simpa using hsg
    | c :: u' =>
      right
      rw [hu]
      apply Near.self _ (by simp)
      refine .seq h1 ?_
      rcases lang_alt h2 with h | h
      · rw [hv] at h
        have := lang_ch.1 h
        simp at this
        rw [this.1, this.2.1]
        exact .altL (lang_ch.2 rfl)
      · rw [hv] at h
        obtain ⟨c', r, hr, h3, h4⟩ := cons_iff.1 h
        simp only [List.cons_append, List.cons.injEq] at hr
        obtain ⟨rfl, rfl⟩ := hr
        exact .altR (cons_iff.2 ⟨c, u', rfl, h3, star_iff.2 (fun x hx => star_iff.1 h4 x (List.mem_append_left _ hx))⟩)

/-! ### Strings, comments, white space, words -/

theorem ws_prefix {u v : List Byte} (h : Lang wsRe (u ++ v)) : u = [] ∨ Near wsRe u := by
  match u with
  | [] => exact Or.inl rfl
  | c :: u =>
    obtain ⟨c', r, he, h1, h2⟩ := cons_iff.1 h
    simp only [List.cons_append, List.cons.injEq] at he
    obtain ⟨rfl, rfl⟩ := he
    exact Or.inr (.self (cons_iff.2 ⟨c, u, rfl, h1, star_iff.2 (fun x hx => star_iff.1 h2 x (List.mem_append_left _ hx))⟩) (by simp))

theorem word_prefix {l : List Nat} {u v : List Byte} (hl : ∀ x ∈ l.map (BitVec.ofNat 8), isAlpha x = true)
    (h : Lang (lit l) (u ++ v)) : u = [] ∨ Near symbolRe u := by
  match u with
  | [] => exact Or.inl rfl
  | c :: u =>
    right
    rw [← lang_lit.1 h] at hl
    have ha : ∀ x ∈ c :: u, isAlpha x = true := fun x hx => hl x (List.mem_append_left _ hx)
    refine .self (symbol_name (nameRe_iff'.2 ⟨c, u, rfl, Or.inl ⟨by rw [ha c (by simp)]; rfl, fun x hx => ?_⟩⟩)) (by simp)
    unfold isNameChar isAlnum
    rw [ha x (by simp [hx])]; rfl

theorem ch_prefix {n : Nat} {u v : List Byte} (h : Lang (ch n) (u ++ v)) : u.length ≤ 2 := by
  have := congrArg List.length (lang_ch.1 h)
  simp at this; omega

/-- The characters and escapes in a string. -/
def bodyRe : Re := .alt (.cls (fun b => !(b == 34#8 || b == 39#8)))
    (.seq (ch 92) (.cls (fun b => b == 116#8 || b == 110#8 || b == 114#8 || b == 92#8 || b == 34#8 || b == 39#8)))

theorem body_item {s : List Byte} (h : Lang bodyRe s) :
    (∃ c, s = [c] ∧ c ≠ 34#8 ∧ c ≠ 39#8) ∨ ∃ c, s = [92#8, c] ∧ (c = 116#8 ∨ c = 110#8 ∨ c = 114#8 ∨ c = 92#8 ∨ c = 34#8 ∨ c = 39#8) := by
  rcases lang_alt h with h | h
  · obtain ⟨c, rfl, hc⟩ := lang_cls h
    left; refine ⟨c, rfl, ?_⟩
    simpa using hc
  · obtain ⟨a, b, rfl, h1, h2⟩ := lang_seq h
    obtain ⟨c, rfl, hc⟩ := lang_cls h2
    rw [lang_ch.1 h1]
    right; refine ⟨c, rfl, ?_⟩
    simpa [or_assoc] using hc

/-- What can be continued to a sequence of characters and escapes is one, or needs one of the quotes. -/
theorem body_prefix : ∀ {u v : List Byte}, Lang (.star bodyRe) (u ++ v) → Lang (.star bodyRe) u
  | [], v, _ => .starNil
  | [c], v, h => by
    obtain ⟨x, y, he, h1, h2⟩ := lang_star_cons h
    rcases body_item h1 with ⟨c', e, h3, h4⟩ | ⟨c', e, h3⟩
    · simp at e
      rw [e.2] at h1
      exact .starCons (s := [c]) h1 .starNil
    · simp at e
      rw [e.1]
      exact .starCons (s := [92#8]) (.altL (.cls rfl)) .starNil
  | c :: d :: u, v, h => by
    obtain ⟨x, y, he, h1, h2⟩ := lang_star_cons h
    rcases body_item h1 with ⟨c', e, h3, h4⟩ | ⟨c', e, h3⟩
    · simp at e
      rw [e.2] at h1
      rw [e.2, List.nil_append] at he
      rw [← he] at h2
      exact .starCons (s := [c]) h1 (body_prefix (u := d :: u) h2)
    · simp at e
      have hd : d = c' ∧ u ++ v = y := by rw [e.2] at he; simpa using he
      rw [← hd.2] at h2
      rw [e.2, ← hd.1] at h1
      exact .starCons (s := [c, d]) h1 (body_prefix h2)

theorem take_cons {s : List Byte} {n : Nat} (hn : 0 < n) (hl : n ≤ s.length) : ∃ c w, s.take n = c :: w := by
  match s, n with
  | [], n => simp at hl; omega
  | c :: s, n + 1 => exact ⟨c, s.take n, rfl⟩

/-- Every quote in a beginning of a string, but the first, ends a string. -/
theorem string_prefix {u v : List Byte} (h : Lang stringRe (u ++ v)) {j : Nat} (hj : 0 < j) (hq : u[j]? = some 34#8) :
    Lang stringRe (u.take (j + 1)) := by
  obtain ⟨c, r, he, h1, h2⟩ := cons_iff.1 h
  obtain ⟨b, e, rfl, h3, h4⟩ := lang_seq h2
  rw [lang_ch.1 h4] at he
  match u with
  | [] => simp at hq
  | c' :: u =>
    simp only [List.cons_append, List.cons.injEq] at he
    obtain ⟨rfl, he⟩ := he
    match j with
    | 0 => omega
    | j + 1 =>
      rw [List.getElem?_cons_succ] at hq
      have hlt : j < u.length := (List.getElem?_eq_some_iff.1 hq).1
      have htake : u.take (j + 1) = u.take j ++ [34#8] := by
        rw [List.take_add_one, hq]; rfl
      rw [List.take_succ_cons, htake]
      refine cons_iff.2 ⟨c', _, rfl, h1, .seq ?_ (lang_ch.2 rfl)⟩
      show Lang (.star bodyRe) (u.take j)
      have hlen : u.length + v.length = b.length + 1 := by
        have := congrArg List.length he
        simpa using this
      have hb : ∃ w, b = u.take j ++ w := by
        refine ⟨b.drop j, ?_⟩
        have : u.take j = b.take j := by
          have e1 : (u ++ v).take j = u.take j := List.take_append_of_le_length (by omega)
          rw [← e1, he]
          exact List.take_append_of_le_length (by omega)
        rw [this, List.take_append_drop]
      obtain ⟨w, hw⟩ := hb
      rw [hw] at h3
      exact body_prefix h3

theorem comment_iff {s : List Byte} (h : Lang commentRe s) : ∃ b, s = 59#8 :: b ++ [10#8] ∧ 10#8 ∉ b := by
  obtain ⟨c, r, rfl, h1, h2⟩ := cons_iff.1 h
  obtain ⟨b, e, rfl, h3, h4⟩ := lang_seq h2
  rw [lang_ch.1 h4]
  have hc : c = 59#8 := by simpa using h1
  refine ⟨b, by rw [hc]; rfl, ?_⟩
  intro hm
  have := star_iff.1 h3 _ hm
  simp at this

theorem comment_exact {s v : List Byte} {n R : Nat} (hn : n ≤ R) (hR : R ≤ s.length) (h1 : Lang commentRe (s.take n))
    (h2 : Lang commentRe (s.take R ++ v)) : R = n := by
  obtain ⟨a, ha, hna⟩ := comment_iff h1
  obtain ⟨b, hb, hnb⟩ := comment_iff h2
  have hl := congrArg List.length ha
  simp at hl
  have hn' : n = a.length + 2 := by omega
  have hl2 := congrArg List.length hb
  simp at hl2
  have hget : (s.take R ++ v)[a.length + 1]? = some 10#8 := by
    rw [List.getElem?_append_left (by simp; omega), List.getElem?_take_of_lt (by omega)]
    have : (s.take n)[a.length + 1]? = some 10#8 := by rw [ha]; simp
    rw [List.getElem?_take_of_lt (by omega)] at this
    exact this
  rw [hb] at hget
  simp only [List.cons_append, List.getElem?_cons_succ] at hget
  by_cases hlt : a.length < b.length
  · rw [List.getElem?_append_left hlt] at hget
    exact absurd (List.mem_of_getElem? hget) hnb
  · omega

/-! ### The scanner -/

/-- Which rules can begin with a quote, a semicolon, a sign or zero. -/
theorem starts_quote {q : Rule × Re} (hq : q ∈ rules) (h : first q.2 34#8 = true) : q = (.string, stringRe) := by
  simp only [rules, List.mem_cons, List.not_mem_nil, or_false] at hq
  rcases hq with e | e | e | e | e | e | e | e | e | e | e | e | e | e | e | e <;> subst e <;> first | rfl | exact absurd h (by decide)

theorem starts_semicolon {q : Rule × Re} (hq : q ∈ rules) (h : first q.2 59#8 = true) : q = (.comment, commentRe) := by
  simp only [rules, List.mem_cons, List.not_mem_nil, or_false] at hq
  rcases hq with e | e | e | e | e | e | e | e | e | e | e | e | e | e | e | e <;> subst e <;> first | rfl | exact absurd h (by decide)

theorem starts_number {q : Rule × Re} (hq : q ∈ rules) {c : Byte} (hc : c = 48#8 ∨ c = 43#8 ∨ c = 45#8) (h : first q.2 c = true) :
    q = (.real, realRe) ∨ q = (.integer, integerRe) ∨ (q = (.symbol, symbolRe) ∧ c ≠ 48#8) := by
  simp only [rules, List.mem_cons, List.not_mem_nil, or_false] at hq
  rcases hc with rfl | rfl | rfl <;>
  rcases hq with e | e | e | e | e | e | e | e | e | e | e | e | e | e | e | e <;> subst e <;>
    first | exact Or.inl rfl | exact Or.inr (Or.inl rfl) | exact Or.inr (Or.inr ⟨rfl, by decide⟩) | exact absurd h (by decide)

theorem sign_symbol {c : Byte} {t : List Byte} (hc : c = 43#8 ∨ c = 45#8) (h : Lang symbolRe (c :: t)) :
    ∃ d t', t = d :: t' ∧ (isAlpha d || isSpecial d) = true := by
  have hname : ∀ {t}, Lang nameRe (c :: t) → ∃ d t', t = d :: t' ∧ (isAlpha d || isSpecial d) = true := by
    intro t h
    obtain ⟨c', r, he, h | h⟩ := nameRe_iff'.1 h
    · simp at he; rw [← he.1] at h
      rcases hc with rfl | rfl <;> exact absurd h.1 (by decide)
    · obtain ⟨_, d, r', rfl, h2, _⟩ := h
      simp at he
      exact ⟨d, r', he.2, h2⟩
  obtain ⟨a, b, he, h1, h2⟩ := lang_seq h
  rcases opt_iff.1 h1 with rfl | h1
  · rw [List.nil_append] at he; rw [← he] at h2; exact hname h2
  · obtain ⟨p, s, rfl, h3, h4⟩ := lang_seq h1
    match p with
    | [] => exact absurd rfl (name_ne h3)
    | c' :: p =>
      simp only [List.cons_append, List.cons.injEq] at he
      rw [← he.1] at h3
      obtain ⟨d, t', rfl, hd⟩ := hname h3
      exact ⟨d, _, he.2, hd⟩

theorem integer_zero {w y sg z : List Byte} {d : Byte} (h : Lang integerRe w) (hs : Lang signRe sg)
    (he : w ++ y = sg ++ 48#8 :: d :: z) : IntText w 0 ∧ y = d :: z := by
  obtain ⟨sg', x, rfl, h1, h2⟩ := lang_seq h
  have hx : x = [48#8] ∨ ∃ c t, x = c :: t ∧ c ≠ 48#8 ∧ c ≠ 43#8 ∧ c ≠ 45#8 := by
    rcases lang_alt h2 with h2 | h2
    · exact Or.inl (lang_ch.1 h2)
    · obtain ⟨c, t, rfl, h3, _⟩ := cons_iff.1 h2
      right
      refine ⟨c, t, rfl, ?_⟩
      have key : ∀ c : Byte, decide (49#8 ≤ c ∧ c ≤ 57#8) = true → c ≠ 48#8 ∧ c ≠ 43#8 ∧ c ≠ 45#8 := by decide +kernel
      exact key c h3
  have h48 : ∀ c ∈ [48#8], isDigit c = true := by decide
  rcases hx with rfl | ⟨c, t, rfl, k1, k2, k3⟩
  · rcases sign_iff.1 h1 with rfl | rfl | rfl <;> rcases sign_iff.1 hs with rfl | rfl | rfl <;> simp at he <;> subst he
    · exact ⟨.plain (ds := [48#8]) (by simp) h48, rfl⟩
    · exact ⟨.plus (ds := [48#8]) (by simp) h48, rfl⟩
    · exact ⟨.minus (ds := [48#8]) (by simp) h48, rfl⟩
  · exfalso
    rcases sign_iff.1 h1 with rfl | rfl | rfl <;> rcases sign_iff.1 hs with rfl | rfl | rfl <;> simp at he
    · exact k1 he.1
    · exact k2 he.1
    · exact k3 he.1
    · exact k1 he.1
    · exact k1 he.1

/-- How far the scanner looks beyond a match: two bytes; or, after a string, up to a place before which there is no other quote; or
beyond a zero that is followed by a digit. -/
theorem scan_near {s : List Byte} {r : Rule} {n : Nat} (h : Longest rules s r n) :
    (scan rules s).read ≤ n + 2 ∨
    (r = .string ∧ s.head? = some 34#8 ∧ ∀ j, n ≤ j → j < (scan rules s).read → s[j]? ≠ some 34#8) ∨
    (r = .integer ∧ IntText (s.take n) 0 ∧ ∃ d y, s.drop n = d :: y ∧ isDigit d = true) := by
  have hnR := scan_read h
  have hRs := (scan_spec rules s).2.1
  have hpos := h.pos
  have hle := h.le
  obtain ⟨q, hq, v, hv⟩ := scan_viable rules rules_inhab s (by omega)
  generalize (scan rules s).read = R at *
  obtain ⟨i, re, hi, hre, _⟩ := h.first
  have hmem := List.mem_of_getElem? hi
  have hne : s.take R ≠ [] := by
    obtain ⟨c, w, hc⟩ := take_cons (s := s) (n := R) (by omega) hRs
    rw [hc]; simp
  have hlen : (s.take R).length = R := by simp; omega
  have near : ∀ {q : Rule × Re}, q ∈ rules → Near q.2 (s.take R) → R ≤ n + 2 := by
    intro q hq ⟨m, h1, h2, h3, h4⟩
    rw [hlen] at h2 h3
    rw [List.take_take, Nat.min_eq_left h2] at h4
    apply Decidable.byContradiction
    intro hno
    exact h.longest m q (by omega) (by omega) hq h4
  have hint : (Rule.integer, integerRe) ∈ rules := by simp [rules]
  have hreal : (Rule.real, realRe) ∈ rules := by simp [rules]
  have hsym : (Rule.symbol, symbolRe) ∈ rules := by simp [rules]
  have hq' := hq
  simp only [rules, List.mem_cons, List.not_mem_nil, or_false] at hq
  rcases hq with e | e | e | e | e | e | e | e | e | e | e | e | e | e | e | e <;> subst e <;> dsimp only at hv
  · rcases word_prefix (by decide) hv with h | h
    · exact absurd h hne
    · exact Or.inl (near hsym h)
  · rcases word_prefix (by decide) hv with h | h
    · exact absurd h hne
    · exact Or.inl (near hsym h)
  · rcases word_prefix (by decide) hv with h | h
    · exact absurd h hne
    · exact Or.inl (near hsym h)
  · rcases real_prefix hv with h | h | h | ⟨sg, d, t, b, z1, z2, z3, z4, z5⟩
    · left; omega
    · exact Or.inl (near hreal h)
    · exact Or.inl (near hint h)
    · have hb := stub_short z5
      have hl2 := congrArg List.length z2
      rw [hlen] at hl2
      simp at hl2
      by_cases hshort : R ≤ n + 2
      · exact Or.inl hshort
      · right; right
        have hs : s = sg ++ 48#8 :: d :: (t ++ b ++ s.drop R) := by
          have := List.take_append_drop R s
          rw [z2] at this
          refine this.symm.trans ?_
          simp
        have hw : s.take n ++ s.drop n = sg ++ 48#8 :: d :: (t ++ b ++ s.drop R) := by rw [List.take_append_drop]; exact hs
        have hdig : ∀ x ∈ s.take n, x ≠ 46#8 ∧ x ≠ 101#8 ∧ x ≠ 69#8 := by
          intro x hx
          have hx' : x ∈ sg ++ 48#8 :: d :: t := by
            have : s.take n = (sg ++ 48#8 :: d :: t).take n := by
              have e1 : s.take n = (s.take R).take n := by rw [List.take_take, Nat.min_eq_left hnR]
              rw [e1, z2, List.take_append_of_le_length (by simp; omega)]
            rw [this] at hx
            exact List.mem_of_mem_take hx
          have kd : ∀ x : Byte, isDigit x = true → x ≠ 46#8 ∧ x ≠ 101#8 ∧ x ≠ 69#8 := by decide +kernel
          rcases List.mem_append.1 hx' with hx' | hx'
          · rcases sign_iff.1 z1 with rfl | rfl | rfl
            · cases hx'
            · simp at hx'; subst hx'; decide
            · simp at hx'; subst hx'; decide
          · rcases List.mem_cons.1 hx' with rfl | hx'
            · decide
            · rcases List.mem_cons.1 hx' with rfl | hx'
              · exact kd _ z3
              · exact kd _ (z4 x hx')
        -- the first byte of the match
        obtain ⟨c, w, hcw⟩ : ∃ c w, s.take n = c :: w := take_cons hpos hle
        have hc : (c = 48#8 ∨ c = 43#8 ∨ c = 45#8) ∧ (c ≠ 48#8 → w ++ s.drop n = 48#8 :: d :: (t ++ b ++ s.drop R)) := by
          rw [hcw] at hw
          rcases sign_iff.1 z1 with rfl | rfl | rfl
          · simp at hw; exact ⟨Or.inl hw.1, fun h => absurd hw.1 h⟩
          · simp at hw; exact ⟨Or.inr (Or.inl hw.1), fun _ => by simpa using hw.2⟩
          · simp at hw; exact ⟨Or.inr (Or.inr hw.1), fun _ => by simpa using hw.2⟩
        rcases starts_number hmem hc.1 (lang_first hre c w hcw) with e | e | ⟨e, hcn⟩
        · injection e with e1 e2
          rw [e2] at hre
          rcases real_has hre with hh | hh | hh
          · exact absurd rfl (hdig _ hh).1
          · exact absurd rfl (hdig _ hh).2.1
          · exact absurd rfl (hdig _ hh).2.2
        · injection e with e1 e2
          rw [e2] at hre
          obtain ⟨k1, k2⟩ := integer_zero hre z1 hw
          exact ⟨e1, k1, d, _, k2, z3⟩
        · injection e with e1 e2
          rw [e2, hcw] at hre
          obtain ⟨d', w', rfl, hd'⟩ := sign_symbol (by
            rcases hc.1 with h | h | h
            · exact absurd h hcn
            · exact Or.inl h
            · exact Or.inr h) hre
          have := hc.2 hcn
          simp at this
          rw [this.1] at hd'
          exact absurd hd' (by decide)
  · rcases integer_prefix hv with h | h
    · left; omega
    · exact Or.inl (near hint h)
  · left; have := ch_prefix hv; omega
  · left; have := ch_prefix hv; omega
  · left; have := ch_prefix hv; omega
  · left; have := ch_prefix hv; omega
  · left; have := ch_prefix hv; omega
  · left; have := ch_prefix hv; omega
  · rcases keyword_prefix hv with h | h
    · left; omega
    · exact Or.inl (near (q := (Rule.keyword, keywordRe)) (by simp [rules]) h)
  · rcases symbol_prefix hv with h | h
    · left; omega
    · exact Or.inl (near hsym h)
  · right; left
    obtain ⟨c, x, hcx⟩ : ∃ c x, s.take n = c :: x := take_cons hpos hle
    have hc : c = 34#8 := by
      obtain ⟨c', r', he, h1, _⟩ := cons_iff.1 hv
      have e1 : s.take R = c :: x ++ (s.take R).drop n := by
        rw [← hcx]
        have : s.take n = (s.take R).take n := by rw [List.take_take, Nat.min_eq_left hnR]
        rw [this, List.take_append_drop]
      rw [e1] at he
      simp only [List.cons_append, List.cons.injEq] at he
      rw [← he.1] at h1
      simpa using h1
    subst hc
    have hr := starts_quote hmem (lang_first hre _ x hcx)
    injection hr with hr _
    refine ⟨hr, ?_, ?_⟩
    · have := congrArg List.head? hcx
      rw [List.head?_take, if_neg (by omega)] at this
      exact this
    · intro j hj hjR hget
      have hget' : (s.take R)[j]? = some 34#8 := by rw [List.getElem?_take_of_lt hjR]; exact hget
      have := string_prefix hv (by omega) hget'
      rw [List.take_take, Nat.min_eq_left (by omega)] at this
      exact h.longest (j + 1) (Rule.string, stringRe) (by omega) (by omega) (by simp [rules]) this
  · rcases ws_prefix hv with h | h
    · exact absurd h hne
    · exact Or.inl (near (q := (Rule.whitespace, wsRe)) (by simp [rules]) h)
  · left
    obtain ⟨c, x, hcx⟩ : ∃ c x, s.take n = c :: x := take_cons hpos hle
    have hc : c = 59#8 := by
      obtain ⟨c', r', he, h1, _⟩ := cons_iff.1 hv
      have e1 : s.take R = c :: x ++ (s.take R).drop n := by
        rw [← hcx]
        have : s.take n = (s.take R).take n := by rw [List.take_take, Nat.min_eq_left hnR]
        rw [this, List.take_append_drop]
      rw [e1] at he
      simp only [List.cons_append, List.cons.injEq] at he
      rw [← he.1] at h1
      simpa using h1
    subst hc
    have hr := starts_semicolon hmem (lang_first hre _ x hcx)
    injection hr with _ hr
    rw [hr] at hre
    have := comment_exact hnR hRs hre hv
    omega

end Ab.Edn.Work
