import Verif.Spec.EdnConcat
import Verif.Proof.EdnLayout
import Verif.Proof.EdnErrors
import Verif.Proof.EdnParse2
/-! One EDN text after another: the pieces, the tokens and the nodes of both. -/
namespace Ab.Edn.Layout

open Spec Re

/-! ### The pieces -/

/-- A significant piece before a line break stays what it is when more text follows. -/
theorem munch_more {c x s : List Byte} {r : Rule} (h : Munch (c ++ (x ++ [10#8])) r c.length) (hr : ¬ IsSkip r)
    (hq : r = .string → ¬ EndsEscaped c ∨ 34#8 ∉ s) : Munch (c ++ ((x ++ [10#8]) ++ s)) r c.length := by
  have ht := h.token
  rw [take_app] at ht
  have hc : c ≠ [] := fun h0 => by have := h.pos; rw [h0] at this; simp at this
  refine ⟨h.pos, by simp, by rw [take_app]; exact ht, ?_, ?_⟩
  · obtain ⟨i, h1, h2⟩ := h.preferred
    rw [take_app] at h2
    exact ⟨i, h1, by rw [take_app]; exact h2⟩
  · intro m q hm1 hm2 hq'
    by_cases hm : m ≤ (c ++ (x ++ [10#8])).length
    · refine h.longest m q hm1 hm ?_
      rw [← List.append_assoc, List.take_append_of_le_length hm] at hq'
      exact hq'
    · have hsplit : (c ++ ((x ++ [10#8]) ++ s)).take m = (c ++ (x ++ [10#8])) ++ s.take (m - (c ++ (x ++ [10#8])).length) := by
        rw [← List.append_assoc, List.take_append, List.take_of_length_le (by omega)]
      rw [hsplit] at hq'
      obtain ⟨d, c', rfl⟩ : ∃ d c', c = d :: c' := by
        cases c with
        | nil => exact absurd rfl hc
        | cons d c' => exact ⟨d, c', rfl⟩
      have hd : r ≠ .string → starts d = false ∧ d ≠ 34#8 := by
        intro hs
        refine plain_bytes (q := r) ?_ ht (by simp)
        cases r <;> first | rfl | exact absurd rfl hs | exact absurd (Or.inl rfl) hr | exact absurd (Or.inr rfl) hr
      have hd2 : r = .string → d = 34#8 := by
        intro hs; subst hs
        obtain ⟨y, e⟩ := string_head ht
        injection e
      have hd3 : starts d = false := by
        by_cases hs : r = .string
        · rw [hd2 hs]; rfl
        · exact (hd hs).1
      by_cases hp : plain q = true
      · have := (plain_bytes hp hq' (b := 10#8) (by simp)).1
        revert this; decide
      · have hq3 : q = .string ∨ q = .whitespace ∨ q = .comment := by
          cases q <;> first | exact absurd rfl hp | simp
        rcases hq3 with rfl | rfl | rfl
        · obtain ⟨y, e⟩ := string_head hq'
          have hd34 : d = 34#8 := by injection e
          subst hd34
          have hrs : r = .string := by
            by_cases hs : r = .string
            · exact hs
            · exact absurd rfl (hd hs).2
          subst hrs
          rw [string_ok] at ht hq'
          obtain ⟨Y, eY, hY⟩ := ht
          obtain ⟨X, eX, hX⟩ := hq'
          have hz : s.take (m - (34#8 :: c' ++ (x ++ [10#8])).length) ≠ [] := by
            intro h0
            have h0' := congrArg List.length h0
            simp only [List.length_take, List.length_nil] at h0'
            simp only [List.length_append, List.length_cons, List.length_nil] at hm2 hm h0'
            omega
          obtain ⟨z, b, hzz⟩ : ∃ z b, s.take (m - (34#8 :: c' ++ (x ++ [10#8])).length) = z ++ [b] :=
            ⟨_, _, (List.dropLast_concat_getLast hz).symm⟩
          rw [hzz, eY] at eX
          have e2 : (34#8 :: (Y ++ [34#8]) ++ (x ++ [10#8]) ++ z) ++ [b] = (34#8 :: X) ++ [34#8] := by
            rw [show (34#8 :: X) ++ [34#8] = 34#8 :: (X ++ [34#8]) from rfl, ← eX]; simp
          obtain ⟨e3, e4⟩ := List.append_inj' e2 rfl
          injection e4 with e4
          subst e4
          have hX' : X = Y ++ (34#8 :: ((x ++ [10#8]) ++ z)) := by
            simp only [List.cons_append, List.cons.injEq, true_and] at e3
            rw [← e3]; simp
          rcases hq rfl with h1 | h1
          · rw [hX', okBody_append] at hX
            simp only [Bool.and_eq_true, okBody] at hX
            have h92 : lastOr 34#8 Y = 92#8 := by simpa using hX.2.1
            apply h1
            rcases List.eq_nil_or_concat Y with h0 | ⟨Y', y, h0⟩
            · subst h0; exact absurd h92 (by decide)
            · subst h0
              rw [List.concat_eq_append, lastOr_append] at h92
              have h92 : y = 92#8 := h92
              subst h92
              refine ⟨34#8 :: Y', ?_⟩
              rw [eY, show ascii "\\\"" = [92#8, 34#8] from rfl]
              simp
          · exact h1 (List.mem_of_mem_take (i := m - (34#8 :: c' ++ (x ++ [10#8])).length) (by rw [hzz]; simp))
        · have := hq'.2 d (by simp)
          rw [← ws_iff] at this
          simp [starts, this] at hd3
        · obtain ⟨y, e⟩ := comment_head hq'
          have : d = 59#8 := by injection e
          subst this; revert hd3; decide

/-- The pieces of a text that ends a line, followed by another text. -/
theorem chunks_more {s : List Byte} {l2 rest} (hs : Chunks s l2 rest) : ∀ {u : List Byte} {l1 : List (Rule × List Byte)} {e : List Byte},
    Chunks u l1 e → e = [] → (u = [] ∨ ∃ v, u = v ++ [10#8]) →
    (∀ t, (Rule.string, t) ∈ l1 → ¬ EndsEscaped t ∨ 34#8 ∉ s) →
    ∃ ls', Chunks (u ++ s) ls' rest ∧ (∀ p, placed p ls' = placed p l1 ++ placed (p + u.length) l2) ∧
      (texts ls').length = u.length + (texts l2).length ∧ (∀ p, brk p ls' = brk p l1 ++ brk (p + u.length) l2) := by
  intro u l1 e h
  induction h with
  | @done u hn =>
    intro he _ _
    subst he
    exact ⟨l2, by simpa using hs, fun p => by simp [placed], by simp, fun p => by simp [brk]⟩
  | @step u r n l1 e hm hrest ih =>
    intro he hl hq
    have hlen : (u.take n).length = n := by rw [List.length_take]; exact Nat.min_eq_left hm.le
    have hsplit : u = u.take n ++ u.drop n := (List.take_append_drop _ _).symm
    have htok := hm.token
    have hl' : u.drop n = [] ∨ ∃ v, u.drop n = v ++ [10#8] := by
      rcases hl with h0 | ⟨v, hv⟩
      · rw [h0]; left; simp
      · by_cases hd : u.drop n = []
        · exact Or.inl hd
        · right
          obtain ⟨z, b, hz⟩ : ∃ z b, u.drop n = z ++ [b] := ⟨_, _, (List.dropLast_concat_getLast hd).symm⟩
          have e1 := hsplit
          rw [hz, hv, ← List.append_assoc] at e1
          have := (List.append_inj' e1 rfl).2
          injection this with this
          exact ⟨z, by rw [hz, ← this]⟩
    obtain ⟨ls1, g1, g2, g3, g4⟩ := ih he hl' (fun t ht => hq t (by simp [ht]))
    have hul : u.length = n + (u.drop n).length := by
      have := congrArg List.length hsplit
      rw [List.length_append, hlen] at this; exact this
    have hcat : u ++ s = u.take n ++ (u.drop n ++ s) := by rw [← List.append_assoc, List.take_append_drop]
    by_cases hsk : IsSkip r
    · rw [hcat]
      rcases hsk with rfl | rfl
      · obtain ⟨ls2, k1, k2, k3, k4⟩ := chunks_wss htok.2 g1
        refine ⟨ls2, k1, fun p => ?_, by rw [k3, g3, hlen]; omega, fun p => ?_⟩
        · rw [k2, g2, placed_skip (Or.inl rfl), hlen]
          congr 2; omega
        · rw [k4, g4, brk_skip (Or.inl rfl), hlen, List.append_assoc]
          congr 3; omega
      · refine ⟨_, chunks_comment htok g1, fun p => ?_, ?_, fun p => ?_⟩
        · rw [placed_skip (Or.inr rfl), placed_skip (Or.inr rfl), g2, hlen]
          congr 2; omega
        · have : texts ((Rule.comment, u.take n) :: ls1) = u.take n ++ texts ls1 := by simp [texts]
          rw [this, List.length_append, hlen]; omega
        · rw [brk_skip (Or.inr rfl), brk_skip (Or.inr rfl), g4, hlen, List.append_assoc]
          congr 3; omega
    · have hstep : Chunks (u ++ s) ((r, u.take n) :: ls1) rest := by
        rcases hl' with h0 | ⟨v, hv⟩
        · -- the last piece ends with the line break, so it is no token
          exfalso
          rw [h0, List.append_nil] at hsplit
          rcases hl with h1 | ⟨v, hv⟩
          · rw [h1] at hm; have := hm.pos; have := hm.le; simp at this; omega
          · rw [← hsplit, hv] at htok
            by_cases hp : plain r = true
            · have := (plain_bytes hp htok (b := 10#8) (by simp)).1
              revert this; decide
            · have hrs : r = .string := by
                cases r <;> first | rfl | exact absurd rfl hp | exact absurd (Or.inl rfl) hsk | exact absurd (Or.inr rfl) hsk
              subst hrs
              rw [string_ok] at htok
              obtain ⟨X, e, -⟩ := htok
              have e' : v ++ [10#8] = (34#8 :: X) ++ [34#8] := by rw [e]; rfl
              have := (List.append_inj' e' rfl).2
              injection this with this
              revert this; decide
        · have hm' : Munch (u.take n ++ (v ++ [10#8])) r (u.take n).length := by
            rw [hlen, ← hv, List.take_append_drop]; exact hm
          have hmm := munch_more (s := s) hm' hsk (fun hr => by subst hr; exact hq _ (by simp))
          rw [← hv] at hmm
          have := Chunks.step hmm (by rw [List.drop_left]; exact g1)
          rwa [take_app, ← hcat] at this
      refine ⟨_, hstep, fun p => ?_, ?_, fun p => ?_⟩
      · rw [placed, if_neg hsk, placed, if_neg hsk, g2, List.cons_append, hlen]
        congr 3; omega
      · have : texts ((r, u.take n) :: ls1) = u.take n ++ texts ls1 := by simp [texts]
        rw [this, List.length_append, hlen]; omega
      · rw [brk, if_neg hsk, brk, if_neg hsk, g4, hlen, List.nil_append, List.nil_append]
        congr 2; omega

/-! ### The tokens -/

theorem toksP_append {L : Lib} : ∀ {xs ys : List (Nat × Rule × List Byte)} {ts : List Token}, toksP L xs = .ok ts →
    toksP L (xs ++ ys) = toksP L ys >>= fun ts' => .ok (ts ++ ts')
  | [], ys, ts, h => by
    injection h with h; subst h
    rw [List.nil_append]
    cases toksP L ys <;> rfl
  | (p, r, t) :: xs, ys, ts, h => by
    rw [toksP] at h
    obtain ⟨k, hk, h⟩ := Outcome.bind_eq_ok.mp h
    obtain ⟨ts1, h1, h⟩ := Outcome.bind_eq_ok.mp h
    have ih := toksP_append (ys := ys) h1
    rw [List.cons_append, toksP, hk, ih]
    simp only [Outcome.ok_bind]
    cases toksP L ys with
    | ok ts2 => cases k <;> (injection h with h; subst h; rfl)
    | _ => rfl

/-! ### The nodes -/

/-- The state with more tokens behind. -/
def more (ts : List Token) (e : Nat) (s : PS) : PS := { s with toks := s.toks ++ ts, eof := e }

variable {ts : List Token} {e : Nat}

theorem more_kind {s : PS} {k : Kind} (h : s.kind = some k) : (more ts e s).kind = some k := by
  unfold PS.kind more at *
  cases hs : s.toks with
  | nil => rw [hs] at h; cases h
  | cons t l => rw [hs] at h; simpa using h

theorem more_adv {s : PS} (h : s.toks ≠ []) : (more ts e s).adv = more ts e s.adv := by
  unfold PS.adv more
  cases hs : s.toks with
  | nil => exact absurd hs h
  | cons t l => simp

theorem kind_ne {s : PS} {k : Kind} (h : s.kind = some k) : s.toks ≠ [] := by
  intro h0; unfold PS.kind at h; rw [h0] at h; cases h

theorem err_log (s : PS) (m : String) : ∃ x, (s.err m).log = s.log ++ [x] := by
  rw [err_next]; exact ⟨_, rfl⟩

/-- No more was logged. -/
theorem quiet2 {a b c : List Err} {x y : List Err} (h1 : b = a ++ x) (h2 : c = b ++ y) (h : c = a) : b = a ∧ c = b := by
  subst h1; subst h2
  have : (x ++ y) = [] := by
    have h' : a ++ (x ++ y) = a ++ [] := by simpa using h
    exact List.append_cancel_left h'
  have hx : x = [] := (List.append_eq_nil_iff.mp this).1
  have hy : y = [] := (List.append_eq_nil_iff.mp this).2
  subst hx; subst hy; simp

theorem noisy {s s1 s' : PS} {m : String} {x : List Err} (h1 : s1 = s.err m) (h2 : s'.log = s1.log ++ x) (h : s'.log = s.log) : False := by
  obtain ⟨y, hy⟩ := err_log s m
  subst h1
  rw [hy, h] at h2
  have := congrArg List.length h2
  simp at this

theorem more_all (L : Lib) : ∀ (fuel : Nat),
    (∀ s s' r, parseNode L fuel s = .ok (s', r) → s'.log = s.log → s.toks ≠ [] →
      parseNode L fuel (more ts e s) = .ok (more ts e s', r)) ∧
    (∀ b s acc s' r, parseSeq L fuel b s acc = .ok (s', r) → s'.log = s.log →
      parseSeq L fuel b (more ts e s) acc = .ok (more ts e s', r)) ∧
    (∀ s es s' r, parseMap L fuel s es = .ok (s', r) → s'.log = s.log →
      parseMap L fuel (more ts e s) es = .ok (more ts e s', r)) := by
  intro fuel
  induction fuel with
  | zero =>
    refine ⟨?_, ?_, ?_⟩
    · intro s s' r h; rw [parseNode] at h; cases h
    · intro b s acc s' r h; rw [parseSeq] at h; cases h
    · intro s es s' r h; rw [parseMap] at h; cases h
  | succ fuel ih =>
    obtain ⟨ihn, ihs, ihm⟩ := ih
    have logN := (log_all L fuel).1
    have logS := (log_all L fuel).2.1
    have logM := (log_all L fuel).2.2
    refine ⟨?_, ?_, ?_⟩
    · intro s s' r h hq hne
      cases hs : s.toks with
      | nil => exact absurd hs hne
      | cons t l =>
        have hm : (more ts e s).toks = t :: (l ++ ts) := by simp [more, hs]
        have hadv : (more ts e s).adv = more ts e s.adv := more_adv hne
        rw [parseNode] at h ⊢
        rw [hs] at h
        rw [hm]
        simp only at h ⊢
        rw [hadv]
        cases hk : t.kind <;> rw [hk] at h <;> simp only at h ⊢
        case nil | bool | integer | real | string =>
          injection h with h; injection h with h1 h2; subst h1; subst h2; rfl
        case symbol | keyword =>
          injection h with h; injection h with h1 h2; subst h1; subst h2
          unfold parseSym
          rw [hadv]; rfl
        case rparen | rbracket | rbrace =>
          injection h with h; injection h with h1 h2; subst h1
          simp at hq
        case lparen | lbracket =>
          obtain ⟨⟨s1, xs⟩, h1, h2⟩ := Outcome.bind_eq_ok.mp h
          injection h2 with h2; injection h2 with h2 h3; subst h2; subst h3
          rw [ihs _ _ _ _ _ h1 hq]; rfl
        case lbrace =>
          obtain ⟨⟨s1, xs⟩, h1, h2⟩ := Outcome.bind_eq_ok.mp h
          injection h2 with h2; injection h2 with h2 h3; subst h2; subst h3
          rw [ihm _ _ _ _ h1 hq]; rfl
    · intro b s acc s' r h hq
      rw [parseSeq] at h ⊢
      cases hk : s.kind with
      | none =>
        rw [hk] at h
        injection h with h; injection h with h _
        obtain ⟨x, hx⟩ := err_log s (seqMsg b none)
        rw [h, hq] at hx
        simp at hx
      | some k =>
        have hne := kind_ne hk
        have hadv : (more ts e s).adv = more ts e s.adv := more_adv hne
        rw [hk] at h
        rw [more_kind hk]
        have next : ∀ {o : Outcome (PS × List Node)}, (parseNode L fuel s >>= fun p => match p.2 with
              | some x => parseSeq L fuel b p.1 (acc ++ [x])
              | none => parseSeq L fuel b p.1 acc) = .ok (s', r) →
            o = (parseNode L fuel (more ts e s) >>= fun p => match p.2 with
              | some x => parseSeq L fuel b p.1 (acc ++ [x])
              | none => parseSeq L fuel b p.1 acc) → o = .ok (more ts e s', r) := by
          intro o h ho
          obtain ⟨⟨s1, x⟩, h1, h2⟩ := Outcome.bind_eq_ok.mp h
          obtain ⟨e1, hl1, -⟩ := logN _ _ _ h1
          have h2' : ∃ acc', parseSeq L fuel b s1 acc' = .ok (s', r) := by cases x <;> exact ⟨_, h2⟩
          obtain ⟨acc', h2'⟩ := h2'
          obtain ⟨e2, hl2, -⟩ := logS _ _ _ _ _ h2'
          obtain ⟨q1, q2⟩ := quiet2 hl1.log hl2.log hq
          rw [ho, ihn _ _ _ h1 q1 hne]
          simp only [Outcome.ok_bind]
          cases x with
          | none => exact ihs _ _ _ _ _ h2 q2
          | some x => exact ihs _ _ _ _ _ h2 q2
        cases k with
        | rparen =>
          injection h with h; injection h with h1 h2; subst h1; subst h2
          cases b with
          | true => simp only [if_true]; rw [hadv]
          | false =>
            obtain ⟨x, hx⟩ := err_log s (seqMsg false (some .rparen))
            simp only [PS.adv] at hq
            rw [if_neg (by decide), hx] at hq; simp at hq
        | rbracket =>
          injection h with h; injection h with h1 h2; subst h1; subst h2
          cases b with
          | true =>
            obtain ⟨x, hx⟩ := err_log s (seqMsg true (some .rbracket))
            simp only [PS.adv] at hq
            simp only [if_true] at hq
            rw [hx] at hq; simp at hq
          | false => simp only [if_neg (by decide : ¬ false = true)]; rw [hadv]
        | rbrace => cases h
        | _ => exact next h rfl
    · intro s es s' r h hq
      rw [parseMap] at h ⊢
      have grow : ∀ {s1 : PS} {es' : List Entry} {y : List Err}, parseMap L fuel s1 es' = .ok (s', r) → s1.log = s.log ++ y → y ≠ [] → False := by
        intro s1 es' y h1 h2 h3
        obtain ⟨e1, hl1, -⟩ := logM _ _ _ _ h1
        rw [hl1.log, h2] at hq
        have := congrArg List.length hq
        simp at this
        exact h3 this.1
      cases hk : s.kind with
      | none =>
        rw [hk] at h
        exfalso
        dsimp only at h
        rw [err_next, err_next] at h
        exact grow h (List.append_assoc _ _ _) (by simp)
      | some k =>
        have hne := kind_ne hk
        have hadv : (more ts e s).adv = more ts e s.adv := more_adv hne
        rw [hk] at h
        rw [more_kind hk]
        have next : ∀ {o : Outcome (PS × List Entry)}, (parseNode L fuel s >>= fun p => match p.2 with
              | none => parseMap L fuel (p.1.err "failed to parse map key") es
              | some k =>
                match p.1.kind with
                | none =>
                  parseMap L fuel
                    ((p.1.err "Unexpected end of file while parsing map value").err "key not followed by value in map") es
                | some .rbrace => .throw fmtBrace
                | some .rparen => .throw fmtBrace
                | some _ => do
                  let (s, v) ← parseNode L fuel p.1
                  match v with
                  | none => parseMap L fuel (s.err "key not followed by value in map") es
                  | some v => do
                    let _ ← Node.hash L k
                    let s := match findKey L es k with
                      | some _ => s.err "duplicate key discovered in map"
                      | none => s
                    parseMap L fuel s (insertEntry L es (k, v))) = .ok (s', r) →
            o = (parseNode L fuel (more ts e s) >>= fun p => match p.2 with
              | none => parseMap L fuel (p.1.err "failed to parse map key") es
              | some k =>
                match p.1.kind with
                | none =>
                  parseMap L fuel
                    ((p.1.err "Unexpected end of file while parsing map value").err "key not followed by value in map") es
                | some .rbrace => .throw fmtBrace
                | some .rparen => .throw fmtBrace
                | some _ => do
                  let (s, v) ← parseNode L fuel p.1
                  match v with
                  | none => parseMap L fuel (s.err "key not followed by value in map") es
                  | some v => do
                    let _ ← Node.hash L k
                    let s := match findKey L es k with
                      | some _ => s.err "duplicate key discovered in map"
                      | none => s
                    parseMap L fuel s (insertEntry L es (k, v))) → o = .ok (more ts e s', r) := by
          intro o h ho
          obtain ⟨⟨s1, x⟩, h1, h2⟩ := Outcome.bind_eq_ok.mp h
          obtain ⟨e1, hl1, -⟩ := logN _ _ _ h1
          cases x with
          | none =>
            exfalso
            dsimp only at h2
            rw [err_next] at h2
            exact grow h2 (show s1.log ++ _ = _ by rw [hl1.log, List.append_assoc]) (by simp)
          | some k' =>
            dsimp only at h2
            cases hk1 : s1.kind with
            | none =>
              exfalso
              rw [hk1] at h2
              dsimp only at h2
              rw [err_next, err_next] at h2
              exact grow h2 (show s1.log ++ _ ++ _ = _ by rw [hl1.log, List.append_assoc, List.append_assoc]) (by simp)
            | some kk =>
              have hne1 := kind_ne hk1
              have rest : ∀ {o : Outcome (PS × List Entry)}, (parseNode L fuel s1 >>= fun p => match p.2 with
                  | none => parseMap L fuel (p.1.err "key not followed by value in map") es
                  | some v => Node.hash L k' >>= fun _ => parseMap L fuel (match findKey L es k' with
                      | some _ => p.1.err "duplicate key discovered in map"
                      | none => p.1) (insertEntry L es (k', v))) = .ok (s', r) →
                  o = (parseNode L fuel (more ts e s1) >>= fun p => match p.2 with
                  | none => parseMap L fuel (p.1.err "key not followed by value in map") es
                  | some v => Node.hash L k' >>= fun _ => parseMap L fuel (match findKey L es k' with
                      | some _ => p.1.err "duplicate key discovered in map"
                      | none => p.1) (insertEntry L es (k', v))) →
                  s1.log = s.log ∧ o = .ok (more ts e s', r) := by
                intro o h ho
                obtain ⟨⟨s2, v⟩, h3, h4⟩ := Outcome.bind_eq_ok.mp h
                obtain ⟨e2, hl2, -⟩ := logN _ _ _ h3
                cases v with
                | none =>
                  exfalso
                  dsimp only at h4
                  rw [err_next] at h4
                  exact grow h4 (show s2.log ++ _ = _ by rw [hl2.log, hl1.log, List.append_assoc, List.append_assoc]) (by simp)
                | some v =>
                  dsimp only at h4
                  obtain ⟨hh, h5, h6⟩ := Outcome.bind_eq_ok.mp h4
                  cases hf : findKey L es k' with
                  | some _ =>
                    exfalso
                    rw [hf] at h6
                    dsimp only at h6
                    rw [err_next] at h6
                    exact grow h6 (show s2.log ++ _ = _ by rw [hl2.log, hl1.log, List.append_assoc, List.append_assoc]) (by simp)
                  | none =>
                    rw [hf] at h6
                    dsimp only at h6
                    obtain ⟨e3, hl3, -⟩ := logM _ _ _ _ h6
                    obtain ⟨q1, q2⟩ := quiet2 hl1.log (by rw [hl3.log, hl2.log, List.append_assoc]) hq
                    obtain ⟨q3, q4⟩ := quiet2 hl2.log hl3.log q2
                    refine ⟨q1, ?_⟩
                    rw [ho, ihn _ _ _ h3 q3 hne1]
                    simp only [Outcome.ok_bind]
                    rw [h5]
                    simp only [Outcome.ok_bind]
                    rw [hf]
                    exact ihm _ _ _ _ h6 q4
              rw [hk1] at h2
              cases kk with
              | rbrace => cases h2
              | rparen => cases h2
              | _ =>
                obtain ⟨q, h7⟩ := rest h2 rfl
                rw [ho, ihn _ _ _ h1 q hne]
                simp only [Outcome.ok_bind]
                rw [more_kind hk1]
                exact h7
        cases k with
        | rbrace =>
          injection h with h; injection h with h1 h2; subst h1; subst h2
          dsimp only; rw [hadv]
        | rparen =>
          exfalso
          injection h with h; injection h with h1 h2; subst h1
          rw [err_next] at hq
          simp [PS.adv] at hq
        | rbracket =>
          exfalso
          injection h with h; injection h with h1 h2; subst h1
          rw [err_next] at hq
          simp [PS.adv] at hq
        | _ => exact next h rfl

theorem top_le {L : Lib} {f : Nat} {s : PS} {acc : List Node} (k : Nat) : Le (parseTop L f s acc) (parseTop L (f + k) s acc) := by
  induction k with
  | zero => exact .refl
  | succ k ih =>
    rcases ih with h | h
    · exact Or.inl h
    · rw [h]; exact mono_top L (f + k) s acc

theorem node_le {L : Lib} {f : Nat} {s : PS} (k : Nat) : Le (parseNode L f s) (parseNode L (f + k) s) := by
  induction k with
  | zero => exact .refl
  | succ k ih =>
    rcases ih with h | h
    · exact Or.inl h
    · rw [h]; exact (mono_all L (f + k)).1 s

/-- Having read all there is without a complaint, the loop goes on with what follows. -/
theorem more_top (L : Lib) : ∀ (f : Nat) (s : PS) (acc : List Node) (s' : PS) (r : List Node),
    parseTop L f s acc = .ok (s', r) → s'.log = s.log →
    s'.toks = [] ∧ ∃ k, k ≤ f ∧ ∀ g, f ≤ g → parseTop L g (more ts e s) acc = parseTop L (g - k) (more ts e s') r := by
  intro f
  induction f with
  | zero => intro s acc s' r h; rw [parseTop] at h; cases h
  | succ f ih =>
    intro s acc s' r h hq
    rw [parseTop] at h
    cases hs : s.toks with
    | nil =>
      rw [hs] at h
      injection h with h; injection h with h1 h2; subst h1; subst h2
      exact ⟨hs, 0, by omega, fun g _ => rfl⟩
    | cons t l =>
      rw [hs] at h
      obtain ⟨⟨s1, x⟩, h1, h2⟩ := Outcome.bind_eq_ok.mp h
      have h2' : ∃ acc', parseTop L f s1 acc' = .ok (s', r) ∧ acc' = (match x with | some x => acc ++ [x] | none => acc) := by
        cases x <;> exact ⟨_, h2, rfl⟩
      obtain ⟨acc', h2', ha⟩ := h2'
      obtain ⟨e1, hl1, -⟩ := (log_all L f).1 _ _ _ h1
      obtain ⟨e2, hl2, -⟩ := top_log L f _ _ _ _ h2'
      obtain ⟨q1, q2⟩ := quiet2 hl1.log hl2.log hq
      obtain ⟨g1, k, hk, g2⟩ := ih _ _ _ _ h2' q2
      refine ⟨g1, k + 1, by omega, ?_⟩
      intro g hg
      obtain ⟨g, rfl⟩ : ∃ j, g = j + 1 := ⟨g - 1, by omega⟩
      have hn := (more_all (ts := ts) (e := e) L f).1 _ _ _ h1 q1 (by rw [hs]; simp)
      have hn' : parseNode L g (more ts e s) = .ok (more ts e s1, x) := by
        rcases node_le (L := L) (f := f) (s := more ts e s) (g - f) with h0 | h0
        · rw [hn] at h0; cases h0
        · rw [show f + (g - f) = g by omega] at h0; rw [← h0, hn]
      rw [parseTop, show (more ts e s).toks = t :: (l ++ ts) by simp [more, hs]]
      dsimp only
      rw [hn']
      simp only [Outcome.ok_bind]
      rw [show g + 1 - (k + 1) = g - k by omega, ← g2 g (by omega), ha]
      cases x <;> rfl

/-- What has been collected before does not matter. -/
theorem top_acc (L : Lib) : ∀ (f : Nat) (s : PS) (acc : List Node),
    parseTop L f s acc = parseTop L f s [] >>= fun q => .ok (q.1, acc ++ q.2) := by
  intro f
  induction f with
  | zero => intro s acc; rfl
  | succ f ih =>
    intro s acc
    rw [parseTop, parseTop]
    cases s.toks with
    | nil => simp only [Outcome.ok_bind, List.append_nil]
    | cons t l =>
      simp only
      cases parseNode L f s with
      | ok q =>
        obtain ⟨s1, x⟩ := q
        simp only [Outcome.ok_bind]
        cases x with
        | none => exact ih _ _
        | some x =>
          dsimp only
          rw [ih s1 (acc ++ [x]), ih s1 ([] ++ [x])]
          cases parseTop L f s1 [] with
          | ok q => simp [Outcome.ok_bind]
          | _ => rfl
      | _ => rfl

end Ab.Edn.Layout
