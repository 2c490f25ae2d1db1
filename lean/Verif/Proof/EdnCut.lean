import Verif.Spec.EdnCut
import Verif.Proof.EdnConcat
import Verif.Proof.EdnForm
/-! The beginning of an EDN text: its pieces, tokens and nodes. -/
namespace Ab.Edn.Layout

open Spec Re

/-! ### The pieces -/

theorem munch_cut {k l : List Byte} {r : Rule} {n : Nat} (h : Munch (k ++ l) r n) (hn : n ≤ k.length) : Munch k r n := by
  have tk : ∀ m, m ≤ k.length → (k ++ l).take m = k.take m := fun m hm => List.take_append_of_le_length hm
  refine ⟨h.pos, hn, by rw [← tk n hn]; exact h.token, ?_, ?_⟩
  · obtain ⟨i, h1, h2⟩ := h.preferred
    exact ⟨i, h1, by rw [← tk n hn]; exact h2⟩
  · intro m q h1 h2
    rw [← tk m h2]
    exact h.longest m q h1 (by rw [List.length_append]; omega)

/-- The pieces of a text cut short: those that are whole, then those of what is left of the next one. -/
theorem chunks_cut {s : List Byte} {ls e} (h : Chunks s ls e) : ∀ k l, s = k ++ l →
    ∃ l1 l2 u lu rest, ls = l1 ++ l2 ∧ k = texts l1 ++ u ∧ Chunks k (l1 ++ lu) rest ∧ Chunks u lu rest ∧
      ((lu = [] ∧ l2 = []) ∨ ∃ r t l3 z, l2 = (r, t) :: l3 ∧ t = u ++ z ∧ z ≠ [] ∧ TokenText r t) := by
  induction h with
  | @done s hn =>
    intro k l hs
    subst hs
    have hk : NoToken k := by
      intro m q h1 h2
      have := hn m q h1 (by rw [List.length_append]; omega)
      rwa [List.take_append_of_le_length h2] at this
    exact ⟨[], [], k, [], k, rfl, rfl, .done hk, .done hk, Or.inl ⟨rfl, rfl⟩⟩
  | @step s r n ls e hm hrest ih =>
    intro k l hs
    subst hs
    by_cases hn : n ≤ k.length
    · obtain ⟨l1, l2, u, lu, rest, h1, h2, h3, h4, h5⟩ := ih (k.drop n) l (List.drop_append_of_le_length hn)
      have ht : (k ++ l).take n = k.take n := List.take_append_of_le_length hn
      refine ⟨(r, k.take n) :: l1, l2, u, lu, rest, by rw [ht, h1]; rfl, ?_, ?_, h4, h5⟩
      · have : texts ((r, k.take n) :: l1) = k.take n ++ texts l1 := by simp [texts]
        rw [this, List.append_assoc, ← h2, List.take_append_drop]
      · exact .step (munch_cut hm hn) h3
    · obtain ⟨lu, rest, hl⟩ := lexemes_exists k
      have hl := lexemes_iff.mp hl
      refine ⟨[], _, k, lu, rest, rfl, by simp [texts], hl, hl, Or.inr ⟨r, _, ls, l.take (n - k.length), rfl, ?_, ?_, hm.token⟩⟩
      · rw [List.take_append, List.take_of_length_le (by omega)]
      · intro h0
        have := congrArg List.length h0
        have hle := hm.le
        rw [List.length_append] at hle
        simp only [List.length_take, List.length_nil] at this
        omega

theorem chunks_mem {s : List Byte} {ls e} (h : Chunks s ls e) : ∀ x ∈ ls, TokenText x.1 x.2 ∧ x.2 ≠ [] ∧ ∀ b ∈ x.2, b ∈ s := by
  induction h with
  | done _ => intro x hx; cases hx
  | @step s r n ls e hm _ ih =>
    intro x hx
    rcases List.mem_cons.mp hx with rfl | hx
    · refine ⟨hm.token, ?_, fun b hb => List.mem_of_mem_take hb⟩
      intro h0
      have := congrArg List.length h0
      have h1 := hm.pos
      have h2 := hm.le
      simp only [List.length_take, List.length_nil] at this
      omega
    · obtain ⟨h1, h2, h3⟩ := ih x hx
      exact ⟨h1, h2, fun b hb => List.mem_of_mem_drop (h3 b hb)⟩

theorem no_pieces {u : List Byte} {lu rest} (h : Chunks u lu rest) (hn : NoToken u) : lu = [] :=
  (lexemes_unique (lexemes_iff.mpr h) (lexemes_iff.mpr (.done hn))).1

/-- The rules of the brackets. -/
def isBr : Rule → Bool
  | .lparen | .rparen | .lbracket | .rbracket | .lbrace | .rbrace => true
  | _ => false

/-- The bytes of the brackets. -/
def brByte (b : Byte) : Bool := b == 40#8 || b == 41#8 || b == 91#8 || b == 93#8 || b == 123#8 || b == 125#8

theorem br_text {r : Rule} {t : List Byte} (hr : isBr r = true) (h : TokenText r t) : ∃ b, t = [b] ∧ brByte b = true := by
  cases r <;> first | (exact absurd hr (by decide)) | skip
  all_goals exact ⟨_, h, by decide⟩

theorem plain_nobr {q : Rule × Re} (hq : q ∈ rules) (hp : plain q.1 = true) (hb : isBr q.1 = false) :
    ∀ b, brByte b = true → uses q.2 b = false := by
  simp only [rules, List.mem_cons, List.not_mem_nil, or_false] at hq
  rcases hq with h | h | h | h | h | h | h | h | h | h | h | h | h | h | h | h <;> subst h
  all_goals first | (exact absurd hp (by decide)) | (exact absurd hb (by decide)) | (clear hp hb; decide +kernel)

theorem nobr_bytes {q : Rule} {t : List Byte} (hp : plain q = true) (hb : isBr q = false) (ht : TokenText q t) {b : Byte}
    (hm : b ∈ t) : brByte b = false := by
  obtain ⟨re, hre⟩ := rule_of q
  have hu := lang_uses ((rule_iff (q, re) hre t).mpr ht) b hm
  have hn := plain_nobr hre hp hb b
  dsimp only at hn
  cases h : brByte b with
  | false => rfl
  | true => rw [hn h] at hu; cases hu

/-- What is left of a cut piece has no brackets in it. -/
theorem torn {r : Rule} {t u z : List Byte} (ht : TokenText r t) (e : t = u ++ z) (hz : z ≠ [])
    (hq : r = .string → ¬ HasEscapedQuote t) {lu rest} (h : Chunks u lu rest) : ∀ x ∈ lu, isBr x.1 = false := by
  have nobr : (∀ b ∈ u, brByte b = false) → ∀ x ∈ lu, isBr x.1 = false := by
    intro hb x hx
    obtain ⟨h1, -, h3⟩ := chunks_mem h x hx
    cases hx1 : isBr x.1 with
    | false => rfl
    | true =>
      obtain ⟨b, e1, e2⟩ := br_text hx1 h1
      have := hb b (h3 b (by rw [e1]; simp))
      rw [e2] at this; cases this
  have none : NoToken u → ∀ x ∈ lu, isBr x.1 = false := by
    intro hn x hx
    rw [no_pieces h hn] at hx; cases hx
  by_cases hb : isBr r = true
  · obtain ⟨b, e1, -⟩ := br_text hb ht
    have hu : u = [] := by
      rw [e1] at e
      have := congrArg List.length e
      have hzl : 0 < z.length := List.length_pos_iff.mpr hz
      simp only [List.length_append, List.length_cons, List.length_nil] at this
      exact List.length_eq_zero_iff.mp (by omega)
    subst hu
    exact nobr (by simp)
  have hb : isBr r = false := by simpa using hb
  by_cases hp : plain r = true
  · exact nobr (fun b hm => nobr_bytes hp hb ht (by rw [e]; simp [hm]))
  obtain ⟨z', c, rfl⟩ : ∃ z' c, z = z' ++ [c] := ⟨_, _, (List.dropLast_concat_getLast hz).symm⟩
  have hr : r = .string ∨ r = .whitespace ∨ r = .comment := by cases r <;> first | exact absurd rfl hp | simp
  rcases hr with rfl | rfl | rfl
  · apply none
    rw [string_ok] at ht
    obtain ⟨X, eX, hX⟩ := ht
    intro m q h1 h2 h3
    cases u with
    | nil => simp at h2; omega
    | cons d u' =>
      have e2 : (34#8 :: X) ++ [34#8] = (d :: (u' ++ z')) ++ [c] := by
        rw [show (34#8 :: X) ++ [34#8] = 34#8 :: (X ++ [34#8]) from rfl, ← eX, e]; simp
      obtain ⟨e3, -⟩ := List.append_inj' e2 rfl
      injection e3 with e3 e4
      subst e3
      obtain ⟨m, rfl⟩ : ∃ j, m = j + 1 := ⟨m - 1, by omega⟩
      rw [List.take_succ_cons] at h3
      have hqs : q = .string := by
        by_cases hpq : plain q = true
        · exact absurd rfl (plain_bytes hpq h3 (b := 34#8) (by simp)).2
        · have : q = .string ∨ q = .whitespace ∨ q = .comment := by cases q <;> first | exact absurd rfl hpq | simp
          rcases this with h | rfl | rfl
          · exact h
          · exact absurd (h3.2 34#8 (by simp)) (by unfold oneOf; decide)
          · obtain ⟨y, ey⟩ := comment_head h3
            injection ey with ey _
            exact absurd ey (by decide)
      subst hqs
      rw [string_ok] at h3
      obtain ⟨Y, eY, -⟩ := h3
      injection eY with _ eY
      have hXs : X = Y ++ (34#8 :: (u'.drop m ++ z')) := by
        rw [e4]
        conv => lhs; rw [← List.take_append_drop m u', eY]
        simp
      rw [hXs, okBody_append] at hX
      simp only [Bool.and_eq_true, okBody] at hX
      have h92 : lastOr 34#8 Y = 92#8 := by simpa using hX.2.1
      apply hq rfl
      rcases List.eq_nil_or_concat Y with h0 | ⟨Y', y, h0⟩
      · subst h0; exact absurd h92 (by decide)
      · subst h0
        rw [List.concat_eq_append, lastOr_append] at h92
        have h92 : y = 92#8 := h92
        subst h92
        refine ⟨34#8 :: Y', u'.drop m ++ z' ++ [34#8], ?_⟩
        rw [eX, hXs, show ascii "\\\"" = [92#8, 34#8] from rfl]
        simp
  · refine nobr (fun b hm => ?_)
    have := ht.2 b (by rw [e]; simp [hm])
    revert this
    unfold oneOf
    revert b
    clear nobr none
    intro b _ hb
    have : ∀ b : Byte, b ∈ ascii " \t,\n" → brByte b = false := by decide +kernel
    exact this b hb
  · apply none
    obtain ⟨w, ew, hw⟩ := ht
    intro m q h1 h2 h3
    cases u with
    | nil => simp at h2; omega
    | cons d u' =>
      have e2 : (59#8 :: w) ++ [10#8] = (d :: (u' ++ z')) ++ [c] := by
        have h0 : ascii ";" ++ w ++ ascii "\n" = (59#8 :: w) ++ [10#8] := rfl
        rw [← h0, ← ew, e]; simp
      obtain ⟨e3, -⟩ := List.append_inj' e2 rfl
      injection e3 with e3 e4
      subst e3
      obtain ⟨m, rfl⟩ : ∃ j, m = j + 1 := ⟨m - 1, by omega⟩
      rw [List.take_succ_cons] at h3
      by_cases hpq : plain q = true
      · exact absurd (plain_bytes hpq h3 (b := 59#8) (by simp)).1 (by decide)
      · have : q = .string ∨ q = .whitespace ∨ q = .comment := by cases q <;> first | exact absurd rfl hpq | simp
        rcases this with rfl | rfl | rfl
        · obtain ⟨y, ey⟩ := string_head h3
          injection ey with ey _
          exact absurd ey (by decide)
        · exact absurd (h3.2 59#8 (by simp)) (by unfold oneOf; decide)
        · obtain ⟨y, ey, -⟩ := h3
          have ey : 59#8 :: u'.take m = 59#8 :: (y ++ [10#8]) := ey
          injection ey with _ ey
          have hmem : (10#8 : Byte) ∈ w := by
            rw [e4]
            refine List.mem_append_left _ (List.mem_of_mem_take (i := m) ?_)
            rw [ey]; simp
          exact hw _ hmem (by unfold oneOf; decide)

/-! ### The tokens -/

theorem isBr_kind {L : Lib} {r : Rule} {t : List Byte} {k : Kind} (h : tokenOf L r t = .ok (some k)) (hr : isBr r = false) :
    isBracket k = false := by
  cases r <;> first | (exact absurd hr (by decide)) | skip
  case real =>
    obtain ⟨v, -, h⟩ := Outcome.bind_eq_ok.mp h
    injection h with h; injection h with h; subst h; rfl
  case integer =>
    obtain ⟨v, -, h⟩ := Outcome.bind_eq_ok.mp h
    injection h with h; injection h with h; subst h; rfl
  all_goals first | (injection h with h; injection h with h; subst h; rfl) | (injection h with h; cases h)

/-- The tokens of the pieces from `p` on. -/
theorem toksP_mem {L : Lib} : ∀ {ls : List (Rule × List Byte)} {p : Nat} {ts : List Token}, toksP L (placed p ls) = .ok ts →
    ∀ t ∈ ts, ∃ x ∈ ls, tokenOf L x.1 x.2 = .ok (some t.kind) ∧ p ≤ t.lo ∧ t.hi = t.lo + x.2.length ∧
      t.hi ≤ p + (texts ls).length ∧ ∀ y l, ls = y :: l → p + y.2.length ≤ t.hi
  | [], p, ts, h => by
    injection h with h; subst h
    intro t ht; cases ht
  | (r, t) :: ls, p, ts, h => by
    have hl : (texts ((r, t) :: ls)).length = t.length + (texts ls).length := by simp [texts]
    rw [placed] at h
    have later : ∀ ts', toksP L (placed (p + t.length) ls) = .ok ts' → ∀ q ∈ ts', ∃ x ∈ (r, t) :: ls,
        tokenOf L x.1 x.2 = .ok (some q.kind) ∧ p ≤ q.lo ∧ q.hi = q.lo + x.2.length ∧
        q.hi ≤ p + (texts ((r, t) :: ls)).length ∧ ∀ y l, (r, t) :: ls = y :: l → p + y.2.length ≤ q.hi := by
      intro ts' h q hq
      obtain ⟨x, hx, h1, h2, h3, h4, -⟩ := toksP_mem h q hq
      refine ⟨x, List.mem_cons_of_mem _ hx, h1, by omega, h3, by omega, ?_⟩
      intro y l e
      injection e with e _
      subst e
      dsimp only; omega
    by_cases hs : IsSkip r
    · rw [if_pos hs] at h
      exact later ts h
    · rw [if_neg hs, toksP] at h
      obtain ⟨k, hk, h⟩ := Outcome.bind_eq_ok.mp h
      obtain ⟨ts1, h1, h⟩ := Outcome.bind_eq_ok.mp h
      cases k with
      | none => injection h with h; subst h; exact later _ h1
      | some k =>
        injection h with h
        subst h
        intro q hq
        rcases List.mem_cons.mp hq with rfl | hq
        · refine ⟨(r, t), by simp, hk, Nat.le_refl _, rfl, by dsimp only; omega, ?_⟩
          intro y l e
          injection e with e _
          subst e
          exact Nat.le_refl _
        · exact later _ h1 q hq

theorem toksP_split {L : Lib} : ∀ {xs ys : List (Nat × Rule × List Byte)} {ts : List Token}, toksP L (xs ++ ys) = .ok ts →
    ∃ ts1 ts2, toksP L xs = .ok ts1 ∧ toksP L ys = .ok ts2 ∧ ts = ts1 ++ ts2
  | [], ys, ts, h => ⟨[], ts, rfl, h, rfl⟩
  | (p, r, t) :: xs, ys, ts, h => by
    rw [List.cons_append, toksP] at h
    obtain ⟨k, hk, h⟩ := Outcome.bind_eq_ok.mp h
    obtain ⟨tt, h1, h⟩ := Outcome.bind_eq_ok.mp h
    obtain ⟨ts1, ts2, e1, e2, rfl⟩ := toksP_split h1
    cases k with
    | none =>
      injection h with h; subst h
      exact ⟨ts1, ts2, by rw [toksP, hk, e1]; rfl, e2, rfl⟩
    | some k =>
      injection h with h; subst h
      exact ⟨_, ts2, by rw [toksP, hk, e1]; rfl, e2, rfl⟩

/-- The tokens of a text and of its beginning: those that are whole in both; in the beginning, those of what is left of
the next piece. -/
theorem tokens_cut {L : Lib} {k l : List Byte} {ls e} (h : Chunks (k ++ l) ls e)
    (hq : ∀ t, (Rule.string, t) ∈ ls → ¬ HasEscapedQuote t) {ts ts' : List Token} {x x' : Lex} (h1 : lex L k = .ok (ts, x))
    (h2 : lex L (k ++ l) = .ok (ts', x')) :
    ∃ ts1 us ts2, ts = ts1 ++ us ∧ ts' = ts1 ++ ts2 ∧ (∀ t ∈ us, isBracket t.kind = false) ∧
      (∀ t ∈ ts1, t.hi ≤ k.length) ∧ (∀ t ∈ ts2, k.length < t.hi) ∧ (us ≠ [] → EndsInside ls k) := by
  obtain ⟨l1, l2, u, lu, rest, e1, e2, c1, c2, hc⟩ := chunks_cut h k l rfl
  rw [lex_spec L (lexemes_iff.mpr c1), toks_placed, placed_append] at h1
  rw [lex_spec L (lexemes_iff.mpr h), e1, toks_placed, placed_append] at h2
  obtain ⟨a, h5, h3⟩ := Outcome.bind_eq_ok.mp h1
  injection h3 with h3; injection h3 with h3 _; subst h3
  obtain ⟨b, h6, h4⟩ := Outcome.bind_eq_ok.mp h2
  injection h4 with h4; injection h4 with h4 _; subst h4
  obtain ⟨ts1, us, g1, g2, rfl⟩ := toksP_split h5
  obtain ⟨ts1', ts2, g1', g3, rfl⟩ := toksP_split h6
  rw [g1] at g1'
  injection g1' with g1'; subst g1'
  have hlen : k.length = (texts l1).length + u.length := by
    have := congrArg List.length e2
    rw [List.length_append] at this; exact this
  have hlu : ∀ x ∈ lu, isBr x.1 = false := by
    rcases hc with ⟨hu, -⟩ | ⟨r, t, l3, z, hl2, ht, hz, htt⟩
    · subst hu
      intro x hx; cases hx
    · exact torn htt ht hz (fun hr => by subst hr; exact hq _ (by rw [e1, hl2]; simp)) c2
  refine ⟨ts1, us, ts2, rfl, rfl, ?_, ?_, ?_, ?_⟩
  · intro t ht
    obtain ⟨x, hx, hk, -⟩ := toksP_mem g2 t ht
    exact isBr_kind hk (hlu x hx)
  · intro t ht
    obtain ⟨-, -, -, -, -, hh, -⟩ := toksP_mem g1 t ht
    omega
  · intro t ht
    obtain ⟨x, hx, -, -, -, -, hf⟩ := toksP_mem g3 t ht
    rcases hc with ⟨-, hl2⟩ | ⟨r, t, l3, z, hl2, ht, hz, -⟩
    · rw [hl2] at hx; cases hx
    · have := hf _ _ hl2
      rw [ht] at this
      have hzl : 0 < z.length := List.length_pos_iff.mpr hz
      simp only [List.length_append] at this
      omega
  · intro hne
    have hlu : lu ≠ [] := by
      intro h0
      subst h0
      injection g2 with g2
      exact hne g2.symm
    have hu : u ≠ [] := by
      intro hu
      subst hu
      cases lu with
      | nil => exact hlu rfl
      | cons x lu =>
        obtain ⟨-, g, g'⟩ := chunks_mem c2 x (by simp)
        apply g
        cases hx2 : x.2 with
        | nil => rfl
        | cons d w => exact absurd (g' d (by rw [hx2]; simp)) (by simp)
    rcases hc with ⟨h0, -⟩ | ⟨r, t, l3, z, hl2, ht, hz, -⟩
    · exact absurd h0 hlu
    · exact ⟨l1, r, u, z, l3, by rw [e1, hl2, ht], e2, hu, hz⟩

/-! ### The nodes -/

/-- Tokens that are no brackets at the end do not matter for the form of what is before. -/
theorem seq_atoms : ∀ {ks : List Kind} {p : Nat}, IsSeq ks p → ∀ (a b : List Kind), ks = a ++ b → (∀ k ∈ b, isBracket k = false) →
    ∃ p', IsSeq a p'
  | _, _, .nil => by
    intro a b h hb
    have : a = [] := (List.append_eq_nil_iff.mp h.symm).1
    subst this
    exact ⟨0, .nil⟩
  | _, _, @IsSeq.cons x y n m hd hs => by
    intro a b h hb
    rcases List.append_eq_append_iff.mp h with ⟨c, rfl, h2⟩ | ⟨c, h1, h2⟩
    · obtain ⟨p', hp⟩ := seq_atoms hs _ _ h2 hb
      exact ⟨n + p', .cons hd hp⟩
    · by_cases hc : c = []
      · subst hc
        refine ⟨n + 0, ?_⟩
        have := IsSeq.cons hd IsSeq.nil
        rw [List.append_nil] at h1 this
        rwa [h1] at this
      · have hend : ∀ (z : List Kind) (k : Kind), x = z ++ [k] → isBracket k = false := by
          intro z k hz
          obtain ⟨c', k', rfl⟩ : ∃ c' k', c = c' ++ [k'] := ⟨_, _, (List.dropLast_concat_getLast hc).symm⟩
          rw [hz, ← List.append_assoc] at h1
          have := (List.append_inj' h1 rfl).2
          injection this with this
          subst this
          exact hb _ (by rw [h2]; simp)
        cases hd with
        | @atom k hk =>
          have : a = [] := by
            have := congrArg List.length h1
            have hcl : 0 < c.length := List.length_pos_iff.mpr hc
            simp only [List.length_append, List.length_cons, List.length_nil] at this
            exact List.length_eq_zero_iff.mp (by omega)
          subst this
          exact ⟨0, .nil⟩
        | @list ks _ _ => exact absurd (hend (.lparen :: ks) .rparen rfl) (by decide)
        | @vec ks _ _ => exact absurd (hend (.lbracket :: ks) .rbracket rfl) (by decide)
        | @map ks _ _ => exact absurd (hend (.lbrace :: ks) .rbrace rfl) (by decide)

/-- Tokens that are no brackets are read as atoms. -/
theorem top_atoms (L : Lib) : ∀ (f : Nat) (s : PS) (acc : List Node) (s' : PS) (r : List Node),
    parseTop L f s acc = .ok (s', r) → (∀ t ∈ s.toks, isBracket t.kind = false) →
    ∃ as, r = acc ++ as ∧ (∀ n ∈ as, IsAtom n) ∧ (s.toks = [] → as = []) := by
  intro f
  induction f with
  | zero => intro s acc s' r h; rw [parseTop] at h; cases h
  | succ f ih =>
    intro s acc s' r h hb
    rw [parseTop] at h
    cases hs : s.toks with
    | nil =>
      rw [hs] at h
      injection h with h; injection h with _ h; subst h
      exact ⟨[], by simp, by simp, fun _ => rfl⟩
    | cons t l =>
      rw [hs] at h
      obtain ⟨⟨s1, x⟩, h1, h2⟩ := Outcome.bind_eq_ok.mp h
      have hk := hb t (by rw [hs]; simp)
      have key : ∃ n, x = some n ∧ IsAtom n ∧ s1.toks = l := by
        cases f with
        | zero => rw [parseNode] at h1; cases h1
        | succ f =>
          rw [parseNode, hs] at h1
          dsimp only at h1
          cases hkk : t.kind <;> rw [hkk] at h1 hk <;> first | (exact absurd hk (by decide)) | skip
          all_goals
            injection h1 with h1
            injection h1 with h1 h3
            subst h1; subst h3
            exact ⟨_, rfl, trivial, by simp [PS.adv, parseSym, hs]⟩
      obtain ⟨n, rfl, hn, ht⟩ := key
      obtain ⟨as, h3, h4, -⟩ := ih _ _ _ _ h2 (by rw [ht]; intro t' h'; exact hb t' (by rw [hs]; simp [h']))
      refine ⟨n :: as, by rw [h3]; simp, ?_, fun h0 => by cases h0⟩
      intro q hq
      rcases List.mem_cons.mp hq with rfl | hq
      · exact hn
      · exact h4 q hq

end Ab.Edn.Layout
