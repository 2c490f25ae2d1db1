import Verif.Proof.EdnParse
/-! The parser returns when no map is left open. -/
namespace Ab.Edn

open Spec

theorem nf_bind {α β : Type} {o : Outcome (PS × α)} {P : PS → α → Prop} {f : PS × α → Outcome (PS × β)}
    {T : Prop} (hg : Good o P T) (hn : o ≠ .fuel) (hf : ∀ s x, P s x → f (s, x) ≠ .fuel) : (o >>= f) ≠ .fuel := by
  rcases hg with ⟨s, x, rfl, hp⟩ | rfl | ⟨rfl, _⟩
  · exact hf s x hp
  · exact absurd rfl hn
  · intro h; cases h

theorem ok_ne_fuel {α : Type} {a : α} : (Outcome.ok a) ≠ .fuel := by intro h; cases h

theorem throw_ne_fuel {α : Type} {w : String} : (Outcome.throw w : Outcome α) ≠ .fuel := by intro h; cases h

theorem ends_all {L : Lib} (hL : Lawful L) : ∀ (fuel : Nat),
    (∀ s, 2 * s.toks.length + 1 ≤ fuel → (∃ st, verdict st s.toks ≠ .runs) → parseNode L fuel s ≠ .fuel) ∧
    (∀ b s acc, (∀ x ∈ acc, Hashable L x) → 2 * s.toks.length + 2 ≤ fuel → (∃ st, verdict (.seq :: st) s.toks ≠ .runs) →
      parseSeq L fuel b s acc ≠ .fuel) ∧
    (∀ s es, (∀ e ∈ es, Hashable L e.1 ∧ Hashable L e.2) → 2 * s.toks.length + 2 ≤ fuel →
      (∃ st, verdict (.key :: st) s.toks ≠ .runs) → parseMap L fuel s es ≠ .fuel) := by
  intro fuel
  induction fuel with
  | zero => refine ⟨fun s h => ?_, fun b s acc _ h => ?_, fun s es _ h => ?_⟩ <;> omega
  | succ fuel ih =>
    obtain ⟨ihN, ihS, ihM⟩ := ih
    obtain ⟨gN, gS, gM⟩ := good_all hL fuel
    refine ⟨fun s hf ho => ?_, fun b s acc hacc hf ho => ?_, fun s es hes hf ho => ?_⟩
    · obtain ⟨st, ho⟩ := ho
      simp only [parseNode]
      cases hs : s.toks with
      | nil => exact ok_ne_fuel
      | cons t ts =>
        have hadv : s.adv.toks = ts := by rw [adv_toks, hs]; rfl
        rw [hs] at hf ho
        simp only [List.length_cons] at hf
        rw [verdict_cons] at ho
        simp only
        cases hk : t.kind with
        | lparen =>
          rw [hk] at ho
          exact nf_bind (gS true s.adv [] (by simp)) (ihS _ _ _ (by simp) (by rw [hadv]; omega)
            ⟨datum st, by rw [hadv]; exact ho⟩) (fun _ _ _ => ok_ne_fuel)
        | lbracket =>
          rw [hk] at ho
          exact nf_bind (gS false s.adv [] (by simp)) (ihS _ _ _ (by simp) (by rw [hadv]; omega)
            ⟨datum st, by rw [hadv]; exact ho⟩) (fun _ _ _ => ok_ne_fuel)
        | lbrace =>
          rw [hk] at ho
          exact nf_bind (gM s.adv [] (by simp)) (ihM _ _ (by simp) (by rw [hadv]; omega)
            ⟨datum st, by rw [hadv]; exact ho⟩) (fun _ _ _ => ok_ne_fuel)
        | _ => exact ok_ne_fuel
    · obtain ⟨st, ho⟩ := ho
      simp only [parseSeq]
      cases hk : s.kind with
      | none => exact ok_ne_fuel
      | some k =>
        obtain ⟨t, ts, hs, htk⟩ := kind_some hk
        have cont : isCloser t.kind = false →
            (parseNode L fuel s >>= fun p => match p.2 with
              | some x => parseSeq L fuel b p.1 (acc ++ [x])
              | none => parseSeq L fuel b p.1 acc) ≠ .fuel := by
          intro hc
          refine nf_bind (gN s) (ihN s (by omega) ⟨_, ho⟩) (fun s1 r h => ?_)
          have hsome := h.some_of t ts hs hc
          have hsh := h.shorter (by rw [hs]; simp)
          cases r with
          | none => cases hsome
          | some x =>
            simp only
            refine ihS b s1 _ ?_ (by omega) ⟨st, by rw [h.track x rfl] at ho; exact ho⟩
            intro y hy
            rcases List.mem_append.mp hy with hy | hy
            · exact hacc y hy
            · simp at hy; subst hy; exact h.hash _ rfl
        cases k with
        | rparen => exact ok_ne_fuel
        | rbracket => exact ok_ne_fuel
        | rbrace => exact throw_ne_fuel
        | _ => exact cont (by rw [htk]; rfl)
    · obtain ⟨st, ho⟩ := ho
      simp only [parseMap]
      cases hk : s.kind with
      | none =>
        rw [kind_none hk] at ho
        exact absurd (verdict_key_nil st) ho
      | some k =>
        obtain ⟨t, ts, hs, htk⟩ := kind_some hk
        have cont : isCloser t.kind = false →
            (parseNode L fuel s >>= fun p => match p.2 with
              | none => parseMap L fuel (p.1.err "failed to parse map key") es
              | some k =>
                match p.1.kind with
                | none =>
                  parseMap L fuel
                    ((p.1.err "Unexpected end of file while parsing map value").err "key not followed by value in map") es
                | some .rbrace => .throw fmtBrace
                | some .rparen => .throw fmtBrace
                | some _ => do
                  let p ← parseNode L fuel p.1
                  match p.2 with
                  | none => parseMap L fuel (p.1.err "key not followed by value in map") es
                  | some v => do
                    let _ ← Node.hash L k
                    parseMap L fuel (match findKey L es k with
                      | some _ => p.1.err "duplicate key discovered in map"
                      | none => p.1) (insertEntry L es (k, v))) ≠ .fuel := by
          intro hc
          refine nf_bind (gN s) (ihN s (by omega) ⟨_, ho⟩) (fun s1 r h => ?_)
          have hsome := h.some_of t ts hs hc
          have hsh := h.shorter (by rw [hs]; simp)
          cases r with
          | none => cases hsome
          | some x =>
            simp only
            have ho1 : verdict (.val :: st) s1.toks ≠ .runs := by rw [h.track x rfl] at ho; exact ho
            have errc : ∀ {t' ts'} {s' : PS}, s1.toks = t' :: ts' → t'.kind = .rbracket → s'.toks = ts' →
                parseMap L fuel s' es ≠ .fuel := by
              intro t' ts' s' hs1 hc' hs'
              rw [hs1, verdict_cons, hc'] at ho1
              rw [hs1] at hsh; simp at hsh
              refine ihM s' es hes (by rw [hs']; omega) ⟨st, ?_⟩
              rw [hs']
              exact ho1
            cases hk1 : s1.kind with
            | none =>
              rw [kind_none hk1] at ho1
              exact absurd (verdict_val_nil st) ho1
            | some k1 =>
              obtain ⟨t1, ts1, hs1, htk1⟩ := kind_some hk1
              have contv : (k1 = .rbracket ∨ isCloser k1 = false) → (parseNode L fuel s1 >>= fun p => match p.2 with
                  | none => parseMap L fuel (p.1.err "key not followed by value in map") es
                  | some v => do
                    let _ ← Node.hash L x
                    parseMap L fuel (match findKey L es x with
                      | some _ => p.1.err "duplicate key discovered in map"
                      | none => p.1) (insertEntry L es (x, v))) ≠ .fuel := by
                intro hk1'
                refine nf_bind (gN s1) (ihN s1 (by omega) ⟨_, ho1⟩) (fun s2 r h2 => ?_)
                have hle2 := h2.le
                cases r with
                | none =>
                  obtain ⟨hc', hs2⟩ := h2.trackNone rfl _ _ hs1
                  refine errc hs1 ?_ (by rw [err_toks]; exact hs2)
                  rcases hk1' with e | e
                  · rw [htk1, e]
                  · rw [htk1, e] at hc'; cases hc'
                | some v =>
                  simp only
                  obtain ⟨hx, hhx⟩ := h.hash x rfl
                  rw [hhx]
                  simp only [Outcome.ok_bind]
                  have htoks : (match findKey L es x with
                      | some _ => s2.err "duplicate key discovered in map"
                      | none => s2).toks = s2.toks := by
                    split
                    · exact err_toks _ _
                    · rfl
                  refine ihM _ _ (insert_hashable hL hes ⟨⟨hx, hhx⟩, h2.hash v rfl⟩) (by rw [htoks]; omega) ⟨st, ?_⟩
                  rw [htoks]
                  rw [h2.track v rfl] at ho1
                  exact ho1
              cases k1 with
              | rbrace => exact throw_ne_fuel
              | rparen => exact throw_ne_fuel
              | rbracket => exact contv (Or.inl rfl)
              | _ => exact contv (Or.inr rfl)
        cases k with
        | rbrace => exact ok_ne_fuel
        | rparen => exact ok_ne_fuel
        | rbracket => exact ok_ne_fuel
        | _ => exact cont (by rw [htk]; rfl)

theorem verdict_top_closer {t : Token} {ts : List Token} (hc : isCloser t.kind = true) : verdict [] (t :: ts) = verdict [] ts := by
  rw [verdict_cons]
  cases hk : t.kind <;> rw [hk] at hc <;> first | rfl | cases hc

theorem top_good {L : Lib} (hL : Lawful L) : ∀ (fuel : Nat) (s : PS) (acc : List Node),
    Good (parseTop L fuel s acc) (fun _ _ => verdict [] s.toks = .returns) (verdict [] s.toks = .throws) := by
  intro fuel
  induction fuel with
  | zero => intro s acc; exact .fuel
  | succ fuel ih =>
    intro s acc
    simp only [parseTop]
    cases hs : s.toks with
    | nil => exact .ok rfl
    | cons t ts =>
      simp only
      rw [← hs]
      refine ((good_all hL fuel).1 s).bind (fun h => h []) (fun s1 r h => ?_)
      cases r with
      | some x =>
        have : verdict [] s.toks = verdict [] s1.toks := h.track x rfl []
        rw [this]
        exact ih s1 _
      | none =>
        obtain ⟨hc, hs1⟩ := h.trackNone rfl _ _ hs
        rw [hs, verdict_top_closer hc, ← hs1]
        exact ih s1 _

theorem top_ends {L : Lib} (hL : Lawful L) : ∀ (fuel : Nat) (s : PS) (acc : List Node),
    2 * s.toks.length + 2 ≤ fuel → verdict [] s.toks ≠ .runs → parseTop L fuel s acc ≠ .fuel := by
  intro fuel
  induction fuel with
  | zero => intro s acc h; omega
  | succ fuel ih =>
    intro s acc hf ho
    simp only [parseTop]
    cases hs : s.toks with
    | nil => exact ok_ne_fuel
    | cons t ts =>
      simp only
      refine nf_bind ((good_all hL fuel).1 s) ((ends_all hL fuel).1 s (by omega) ⟨_, ho⟩) (fun s1 r h => ?_)
      have hsh := h.shorter (by rw [hs]; simp)
      cases r with
      | some x => exact ih s1 _ (by omega) (by rw [h.track x rfl] at ho; exact ho)
      | none =>
        refine ih s1 _ (by omega) ?_
        obtain ⟨hc, hs1⟩ := h.trackNone rfl _ _ hs
        rw [hs, verdict_top_closer hc] at ho
        rw [hs1]
        exact ho

/-! ### More fuel does not change a result -/

/-- `a` is defined and `b` agrees with it, or `a` ran out of fuel. -/
def Le {α : Type} (a b : Outcome α) : Prop := a = .fuel ∨ a = b

theorem Le.bind {α β : Type} {a b : Outcome α} {f g : α → Outcome β} (h : Le a b) (hf : ∀ x, Le (f x) (g x)) :
    Le (a >>= f) (b >>= g) := by
  rcases h with rfl | rfl
  · exact Or.inl rfl
  · cases a with
    | ok x => exact hf x
    | _ => first | exact Or.inl rfl | exact Or.inr rfl

theorem Le.refl {α : Type} {a : Outcome α} : Le a a := Or.inr rfl

theorem mono_all (L : Lib) : ∀ (fuel : Nat),
    (∀ s, Le (parseNode L fuel s) (parseNode L (fuel + 1) s)) ∧
    (∀ b s acc, Le (parseSeq L fuel b s acc) (parseSeq L (fuel + 1) b s acc)) ∧
    (∀ s es, Le (parseMap L fuel s es) (parseMap L (fuel + 1) s es)) := by
  intro fuel
  induction fuel with
  | zero =>
    refine ⟨fun s => Or.inl ?_, fun b s acc => Or.inl ?_, fun s es => Or.inl ?_⟩
    · simp only [parseNode]
    · simp only [parseSeq]
    · simp only [parseMap]
  | succ fuel ih =>
    obtain ⟨ihN, ihS, ihM⟩ := ih
    refine ⟨fun s => ?_, fun b s acc => ?_, fun s es => ?_⟩
    · rw [parseNode, parseNode]
      cases s.toks with
      | nil => exact .refl
      | cons t ts =>
        simp only
        cases t.kind with
        | lparen => exact .bind (ihS _ _ _) (fun _ => .refl)
        | lbracket => exact .bind (ihS _ _ _) (fun _ => .refl)
        | lbrace => exact .bind (ihM _ _) (fun _ => .refl)
        | _ => exact .refl
    · rw [parseSeq, parseSeq]
      cases s.kind with
      | none => exact .refl
      | some k =>
        cases k with
        | rparen => exact .refl
        | rbracket => exact .refl
        | rbrace => exact .refl
        | _ => exact .bind (ihN _) (fun p => by obtain ⟨s, r⟩ := p; cases r <;> exact ihS _ _ _)
    · rw [parseMap, parseMap]
      cases s.kind with
      | none => exact ihM _ _
      | some k =>
        cases k with
        | rparen => exact .refl
        | rbracket => exact .refl
        | rbrace => exact .refl
        | _ =>
          refine .bind (ihN _) (fun p => ?_)
          obtain ⟨s, r⟩ := p
          cases r with
          | none => exact ihM _ _
          | some k =>
            simp only
            cases s.kind with
            | none => exact ihM _ _
            | some kk =>
              cases kk with
              | rparen => exact .refl
              | rbrace => exact .refl
              | _ =>
                refine .bind (ihN _) (fun p => ?_)
                obtain ⟨s, r⟩ := p
                cases r with
                | none => exact ihM _ _
                | some v => exact .bind .refl (fun _ => ihM _ _)

theorem mono_top (L : Lib) : ∀ (fuel : Nat) (s : PS) (acc : List Node),
    Le (parseTop L fuel s acc) (parseTop L (fuel + 1) s acc) := by
  intro fuel
  induction fuel with
  | zero => intro s acc; exact Or.inl rfl
  | succ fuel ih =>
    intro s acc
    rw [parseTop, parseTop]
    cases s.toks with
    | nil => exact .refl
    | cons t ts => exact .bind ((mono_all L fuel).1 _) (fun p => by obtain ⟨s, r⟩ := p; cases r <;> exact ih _ _)

/-- A result stays the same with more fuel. -/
theorem parse_mono' {L : Lib} {f g : Nat} {tab : SymTab} {s : List Byte} {o : Outcome Doc} (h : parse L f tab s = o) (ho : o ≠ .fuel)
    (hfg : f ≤ g) : parse L g tab s = o := by
  induction g with
  | zero => have : f = 0 := by omega
            subst this; exact h
  | succ g ih =>
    rcases Nat.lt_or_ge g f with hlt | hge
    · have : f = g + 1 := by omega
      subst this; exact h
    · have h1 := ih hge
      unfold parse at h1 ⊢
      have : Le (lex L s >>= fun x => parseTop L g ⟨x.1, x.2.pos, tab, []⟩ [] >>= fun y => pure (⟨y.2, y.1.log, x.2.breaks, y.1.tab⟩ : Doc))
          (lex L s >>= fun x => parseTop L (g + 1) ⟨x.1, x.2.pos, tab, []⟩ [] >>= fun y => pure (⟨y.2, y.1.log, x.2.breaks, y.1.tab⟩ : Doc)) :=
        .bind .refl (fun x => .bind (mono_top L g _ _) (fun _ => .refl))
      rcases this with h2 | h2
      · exact absurd (h1.symm.trans h2) ho
      · exact (h2.symm.trans h1)

theorem parse_mono {L : Lib} {f g : Nat} {tab : SymTab} {s : List Byte} {d : Doc} (h : parse L f tab s = .ok d)
    (hfg : f ≤ g) : parse L g tab s = .ok d := parse_mono' h (by intro h; cases h) hfg

end Ab.Edn
