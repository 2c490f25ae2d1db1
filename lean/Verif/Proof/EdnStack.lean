import Verif.Model.EdnStack
import Verif.Spec.EdnDepth
import Verif.Proof.EdnParse2
/-! The parser on a finite stack does what the parser does, unless too many collections are open at once. -/
namespace Ab.Edn.Stack

open Ab.Edn Spec

theorem datum_length : ∀ st : List Frame, (datum st).length = st.length
  | [] => rfl
  | .seq :: _ => rfl
  | .key :: _ => rfl
  | .val :: _ => rfl

theorem tall_le {D : Nat} {st : List Frame} : ∀ {ts : List Token}, tallest st ts ≤ D → st.length ≤ D
  | [], h => h
  | _ :: _, h => Nat.le_trans (Nat.le_max_left _ _) h

theorem tall_cons {D : Nat} {st st' : List Frame} {t : Token} {ts : List Token} (h : st.length ≤ D)
    (hk : tokenStep st t.kind = some st') : tallest st (t :: ts) ≤ D ↔ tallest st' ts ≤ D := by
  simp only [tallest, hk]
  omega

theorem tall_none {D : Nat} {st : List Frame} {t : Token} {ts : List Token} (h : st.length ≤ D)
    (hk : tokenStep st t.kind = none) : tallest st (t :: ts) ≤ D := by
  simp only [tallest, hk]
  omega

/-- The limited run `oD` and the unlimited run `o`: `F` says that the rest fits, `G` what remains to fit afterwards, `E` that there was enough
fuel for every token. -/
def Same {α : Type} (oD o : Outcome (PS × α)) (F : Prop) (G : PS → α → Prop) (E : Prop) : Prop :=
  (oD = o ∧ ((∃ s x, o = .ok (s, x) ∧ (F ↔ G s x)) ∨ (o = .fuel ∧ (E → F)) ∨ (o = .throw fmtBrace ∧ F))) ∨
  (oD = .ub stackUb ∧ ¬ F)

theorem Same.ok {α : Type} {s : PS} {x : α} {F : Prop} {G : PS → α → Prop} {E : Prop} (h : F ↔ G s x) :
    Same (.ok (s, x)) (.ok (s, x)) F G E := Or.inl ⟨rfl, Or.inl ⟨s, x, rfl, h⟩⟩

theorem Same.fuel {α : Type} {F : Prop} {G : PS → α → Prop} {E : Prop} (h : E → F) :
    Same (.fuel : Outcome (PS × α)) .fuel F G E := Or.inl ⟨rfl, Or.inr (Or.inl ⟨rfl, h⟩)⟩

theorem Same.throw {α : Type} {F : Prop} {G : PS → α → Prop} {E : Prop} (h : F) :
    Same (.throw fmtBrace : Outcome (PS × α)) (.throw fmtBrace) F G E := Or.inl ⟨rfl, Or.inr (Or.inr ⟨rfl, h⟩)⟩

theorem Same.bind {α β : Type} {oD o : Outcome (PS × α)} {F : Prop} {G : PS → α → Prop} {E E' : Prop} {P : PS → α → Prop} {T : Prop}
    {fD f : PS × α → Outcome (PS × β)} {G' : PS → β → Prop} (h : Same oD o F G E) (hg : Good o P T) (hE : E' → E)
    (hf : ∀ s x, P s x → (F ↔ G s x) → Same (fD (s, x)) (f (s, x)) F G' E') : Same (oD >>= fD) (o >>= f) F G' E' := by
  rcases h with ⟨rfl, ⟨s, x, rfl, hx⟩ | ⟨rfl, he⟩ | ⟨rfl, ht⟩⟩ | ⟨rfl, hn⟩
  · refine hf s x ?_ hx
    rcases hg with ⟨s', x', e, hp⟩ | e | ⟨e, _⟩
    · cases e; exact hp
    · cases e
    · cases e
  · exact Or.inl ⟨rfl, Or.inr (Or.inl ⟨rfl, fun e => he (hE e)⟩)⟩
  · exact Or.inl ⟨rfl, Or.inr (Or.inr ⟨rfl, ht⟩)⟩
  · exact Or.inr ⟨rfl, hn⟩

theorem Same.mono {α : Type} {oD o : Outcome (PS × α)} {F F' : Prop} {G G' : PS → α → Prop} {E E' : Prop} (h : Same oD o F G E)
    (hF : F' ↔ F) (hG : ∀ s x, G s x ↔ G' s x) (hE : E' → E ∨ F') : Same oD o F' G' E' := by
  rcases h with ⟨rfl, ⟨s, x, rfl, hx⟩ | ⟨rfl, he⟩ | ⟨rfl, ht⟩⟩ | ⟨rfl, hn⟩
  · exact .ok (hF.trans (hx.trans (hG s x)))
  · exact .fuel fun e => (hE e).elim (fun e => hF.2 (he e)) id
  · exact .throw (hF.2 ht)
  · exact Or.inr ⟨rfl, fun f => hn (hF.1 f)⟩

/-- What remains to fit after a call of `parseNode`. -/
def After (D : Nat) (st : List Frame) (F : Prop) (s : PS) : Option Node → Prop
  | some _ => tallest (datum st) s.toks ≤ D
  | none => F

theorem same_all {L : Lib} (hL : Lawful L) (D : Nat) : ∀ (fuel : Nat),
    (∀ room s st, st.length + room = D →
      Same (parseNodeD L room fuel s) (parseNode L fuel s) (tallest st s.toks ≤ D) (After D st (tallest st s.toks ≤ D))
        (2 * s.toks.length + 1 ≤ fuel)) ∧
    (∀ room b s acc st, (∀ x ∈ acc, Hashable L x) → st.length + 1 + room = D →
      Same (parseSeqD L room fuel b s acc) (parseSeq L fuel b s acc) (tallest (.seq :: st) s.toks ≤ D)
        (fun s' _ => tallest st s'.toks ≤ D) (2 * s.toks.length + 2 ≤ fuel)) ∧
    (∀ room s es st, (∀ e ∈ es, Hashable L e.1 ∧ Hashable L e.2) → st.length + 1 + room = D →
      Same (parseMapD L room fuel s es) (parseMap L fuel s es) (tallest (.key :: st) s.toks ≤ D)
        (fun s' _ => tallest st s'.toks ≤ D) (2 * s.toks.length + 2 ≤ fuel)) := by
  intro fuel
  induction fuel with
  | zero =>
    refine ⟨fun room s st _ => ?_, fun room b s acc st _ _ => ?_, fun room s es st _ _ => ?_⟩
    · simp only [parseNodeD, parseNode]; exact .fuel (by omega)
    · simp only [parseSeqD, parseSeq]; exact .fuel (by omega)
    · simp only [parseMapD, parseMap]; exact .fuel (by omega)
  | succ fuel ih =>
    obtain ⟨ihN, ihS, ihM⟩ := ih
    obtain ⟨gN, gS, gM⟩ := good_all hL fuel
    refine ⟨fun room s st hroom => ?_, fun room b s acc st hacc hroom => ?_, fun room s es st hes hroom => ?_⟩
    · simp only [parseNodeD, parseNode]
      cases hs : s.toks with
      | nil => exact .ok Iff.rfl
      | cons t ts =>
        simp only
        have hadv : s.adv.toks = ts := by rw [adv_toks, hs]; rfl
        have hlen : st.length ≤ D := by omega
        have atom : ∀ {s' : PS} {x : Node}, s'.toks = ts → tokenStep st t.kind = some (datum st) →
            Same (.ok (s', some x)) (.ok (s', some x)) (tallest st (t :: ts) ≤ D) (After D st (tallest st (t :: ts) ≤ D))
              (2 * (t :: ts).length + 1 ≤ fuel + 1) := by
          intro s' x hs' hk
          refine .ok ?_
          rw [tall_cons hlen hk, After, hs']
        have full : ∀ {f : Frame} {α : Type} {o : Outcome (PS × α)} {G : PS → α → Prop} {E : Prop}, room = 0 →
            tokenStep st t.kind = some (f :: datum st) → Same (.ub stackUb) o (tallest st (t :: ts) ≤ D) G E := by
          intro f α o G E h0 hk
          refine Or.inr ⟨rfl, fun h => ?_⟩
          rw [tall_cons hlen hk] at h
          have := tall_le h
          rw [List.length_cons, datum_length] at this
          omega
        cases hk : t.kind with
        | nil => exact atom hadv (by rw [hk]; rfl)
        | bool b => exact atom hadv (by rw [hk]; rfl)
        | integer v => exact atom hadv (by rw [hk]; rfl)
        | real v => exact atom hadv (by rw [hk]; rfl)
        | string => exact atom hadv (by rw [hk]; rfl)
        | symbol => exact atom hadv (by rw [hk]; rfl)
        | keyword => exact atom hadv (by rw [hk]; rfl)
        | lparen =>
          have hstep : tokenStep st t.kind = some (.seq :: datum st) := by rw [hk]; rfl
          simp only
          cases room with
          | zero => exact full rfl hstep
          | succ room =>
            have h := ihS room true s.adv [] (datum st) (by simp) (by rw [datum_length]; omega)
            rw [hadv] at h
            refine (h.mono (tall_cons hlen hstep) (fun _ _ => Iff.rfl) Or.inl).bind (gS true s.adv [] (by simp)) ?_ (fun s' xs _ hx => .ok hx)
            simp only [List.length_cons]; omega
        | lbracket =>
          have hstep : tokenStep st t.kind = some (.seq :: datum st) := by rw [hk]; rfl
          simp only
          cases room with
          | zero => exact full rfl hstep
          | succ room =>
            have h := ihS room false s.adv [] (datum st) (by simp) (by rw [datum_length]; omega)
            rw [hadv] at h
            refine (h.mono (tall_cons hlen hstep) (fun _ _ => Iff.rfl) Or.inl).bind (gS false s.adv [] (by simp)) ?_ (fun s' xs _ hx => .ok hx)
            simp only [List.length_cons]; omega
        | lbrace =>
          have hstep : tokenStep st t.kind = some (.key :: datum st) := by rw [hk]; rfl
          simp only
          cases room with
          | zero => exact full rfl hstep
          | succ room =>
            have h := ihM room s.adv [] (datum st) (by simp) (by rw [datum_length]; omega)
            rw [hadv] at h
            refine (h.mono (tall_cons hlen hstep) (fun _ _ => Iff.rfl) Or.inl).bind (gM s.adv [] (by simp)) ?_ (fun s' xs _ hx => .ok hx)
            simp only [List.length_cons]; omega
        | rparen => exact .ok Iff.rfl
        | rbrace => exact .ok Iff.rfl
        | rbracket => exact .ok Iff.rfl
    · simp only [parseSeqD, parseSeq]
      have hlen : (Frame.seq :: st).length ≤ D := by rw [List.length_cons]; omega
      have close : ∀ {t ts} {s' : PS}, s.toks = t :: ts → t.kind = .rparen ∨ t.kind = .rbracket → s'.toks = ts →
          (tallest (.seq :: st) s.toks ≤ D ↔ tallest st s'.toks ≤ D) := by
        intro t ts s' hs hc hs'
        rw [hs, hs']
        exact tall_cons hlen (by rcases hc with hc | hc <;> rw [hc] <;> rfl)
      have cont : ∀ {t ts}, s.toks = t :: ts → isCloser t.kind = false →
          Same (parseNodeD L room fuel s >>= fun p => match p.2 with
            | some x => parseSeqD L room fuel b p.1 (acc ++ [x])
            | none => parseSeqD L room fuel b p.1 acc)
          (parseNode L fuel s >>= fun p => match p.2 with
            | some x => parseSeq L fuel b p.1 (acc ++ [x])
            | none => parseSeq L fuel b p.1 acc)
          (tallest (.seq :: st) s.toks ≤ D) (fun s' _ => tallest st s'.toks ≤ D) (2 * s.toks.length + 2 ≤ fuel + 1) := by
        intro t ts hs hc
        refine (ihN room s (.seq :: st) (by rw [List.length_cons]; omega)).bind (gN s) (by omega) (fun s1 r h hF => ?_)
        have hsome := h.some_of t ts hs hc
        cases r with
        | none => cases hsome
        | some x =>
          simp only
          have hsh := h.shorter (by rw [hs]; simp)
          refine (ihS room b s1 (acc ++ [x]) st ?_ hroom).mono hF (fun _ _ => Iff.rfl) (fun _ => Or.inl (by omega))
          intro y hy
          rcases List.mem_append.mp hy with hy | hy
          · exact hacc y hy
          · simp at hy; subst hy; exact h.hash _ rfl
      cases hk : s.kind with
      | none =>
        have hs := kind_none hk
        refine .ok ?_
        rw [err_toks, hs]
        simp only [tallest, List.length_cons]
        omega
      | some k =>
        obtain ⟨t, ts, hs, htk⟩ := kind_some hk
        cases k with
        | rparen =>
          refine .ok (close hs (Or.inl htk) ?_)
          cases b <;> simp [err_toks, hs]
        | rbracket =>
          refine .ok (close hs (Or.inr htk) ?_)
          cases b <;> simp [err_toks, hs]
        | rbrace =>
          refine .throw ?_
          rw [hs]
          exact tall_none hlen (by rw [htk]; rfl)
        | _ => exact cont hs (by rw [htk]; rfl)
    · simp only [parseMapD, parseMap]
      have hlen : (Frame.key :: st).length ≤ D := by rw [List.length_cons]; omega
      have hlenv : (Frame.val :: st).length ≤ D := by rw [List.length_cons]; omega
      have close : ∀ {t ts} {s' : PS}, s.toks = t :: ts → isCloser t.kind = true → s'.toks = ts →
          (tallest (.key :: st) s.toks ≤ D ↔ tallest st s'.toks ≤ D) := by
        intro t ts s' hs hc hs'
        rw [hs, hs']
        refine tall_cons hlen ?_
        cases hk : t.kind <;> rw [hk] at hc <;> first | rfl | cases hc
      cases hk : s.kind with
      | none =>
        have hs := kind_none hk
        refine (ihM room _ es st hes hroom).mono ?_ (fun _ _ => Iff.rfl) ?_
        · rw [err_toks, err_toks]
        · intro _
          rw [hs]
          exact Or.inr hlen
      | some k =>
        obtain ⟨t, ts, hs, htk⟩ := kind_some hk
        have cont : isCloser t.kind = false →
            Same (parseNodeD L room fuel s >>= fun p => match p.2 with
              | none => parseMapD L room fuel (p.1.err "failed to parse map key") es
              | some k =>
                match p.1.kind with
                | none =>
                  parseMapD L room fuel
                    ((p.1.err "Unexpected end of file while parsing map value").err "key not followed by value in map") es
                | some .rbrace => .throw fmtBrace
                | some .rparen => .throw fmtBrace
                | some _ => do
                  let p ← parseNodeD L room fuel p.1
                  match p.2 with
                  | none => parseMapD L room fuel (p.1.err "key not followed by value in map") es
                  | some v => do
                    let _ ← Node.hash L k
                    parseMapD L room fuel (match findKey L es k with
                      | some _ => p.1.err "duplicate key discovered in map"
                      | none => p.1) (insertEntry L es (k, v)))
            (parseNode L fuel s >>= fun p => match p.2 with
              | none => parseMap L fuel (p.1.err "failed to parse map key") es
              | some k =>
                match p.1.kind with
                | none =>
                  parseMap L fuel
                    ((p.1.err "Unexpected end of file while parsing map value").err "key not followed by value in map") es
                | some .rbrace => .throw fmtBrace
                | some .rparen => .throw fmtBrace
                | some _ => do
                  let p ← parseNode L fuel p.1
                  match p.2 with
                  | none => parseMap L fuel (p.1.err "key not followed by value in map") es
                  | some v => do
                    let _ ← Node.hash L k
                    parseMap L fuel (match findKey L es k with
                      | some _ => p.1.err "duplicate key discovered in map"
                      | none => p.1) (insertEntry L es (k, v)))
            (tallest (.key :: st) s.toks ≤ D) (fun s' _ => tallest st s'.toks ≤ D) (2 * s.toks.length + 2 ≤ fuel + 1) := by
          intro hc
          refine (ihN room s (.key :: st) (by rw [List.length_cons]; omega)).bind (gN s) (by omega) (fun s1 r h hF => ?_)
          have hsome := h.some_of t ts hs hc
          have hsh := h.shorter (by rw [hs]; simp)
          cases r with
          | none => cases hsome
          | some x =>
            simp only
            have hF : tallest (.key :: st) s.toks ≤ D ↔ tallest (.val :: st) s1.toks ≤ D := hF
            cases hk1 : s1.kind with
            | none =>
              have hs1 := kind_none hk1
              refine (ihM room _ es st hes hroom).mono ?_ (fun _ _ => Iff.rfl) ?_
              · rw [hF, err_toks, err_toks, hs1]
                exact Iff.rfl
              · intro _
                rw [hF, hs1]
                exact Or.inr hlenv
            | some k1 =>
              obtain ⟨t1, ts1, hs1, htk1⟩ := kind_some hk1
              have contv : (k1 = .rbracket ∨ isCloser k1 = false) →
                  Same (parseNodeD L room fuel s1 >>= fun p => match p.2 with
                    | none => parseMapD L room fuel (p.1.err "key not followed by value in map") es
                    | some v => do
                      let _ ← Node.hash L x
                      parseMapD L room fuel (match findKey L es x with
                        | some _ => p.1.err "duplicate key discovered in map"
                        | none => p.1) (insertEntry L es (x, v)))
                  (parseNode L fuel s1 >>= fun p => match p.2 with
                    | none => parseMap L fuel (p.1.err "key not followed by value in map") es
                    | some v => do
                      let _ ← Node.hash L x
                      parseMap L fuel (match findKey L es x with
                        | some _ => p.1.err "duplicate key discovered in map"
                        | none => p.1) (insertEntry L es (x, v)))
                  (tallest (.key :: st) s.toks ≤ D) (fun s' _ => tallest st s'.toks ≤ D)
                  (2 * s.toks.length + 2 ≤ fuel + 1) := by
                intro hk1'
                refine ((ihN room s1 (.val :: st) (by rw [List.length_cons]; omega)).mono hF (fun _ _ => Iff.rfl) Or.inl).bind
                  (gN s1) (by omega) (fun s2 r h2 hF2 => ?_)
                have hle2 := h2.le
                cases r with
                | none =>
                  obtain ⟨hc', hs2⟩ := h2.trackNone rfl _ _ hs1
                  have htk : t1.kind = .rbracket := by
                    rcases hk1' with e | e
                    · rw [htk1, e]
                    · rw [htk1, e] at hc'; cases hc'
                  refine (ihM room _ es st hes hroom).mono ?_ (fun _ _ => Iff.rfl) (fun _ => Or.inl ?_)
                  · rw [hF, hs1, err_toks, hs2]
                    exact tall_cons hlenv (by rw [htk]; rfl)
                  · rw [err_toks]; dsimp only; omega
                | some v =>
                  simp only
                  obtain ⟨hx, hhx⟩ := h.hash x rfl
                  rw [hhx]
                  simp only [Outcome.ok_bind]
                  have htoks : (match findKey L es x with
                      | some _ => s2.err "duplicate key discovered in map"
                      | none => s2).toks = s2.toks := by
                    split
                    · exact err_toks _ _
                    · rfl
                  refine (ihM room _ _ st (insert_hashable hL hes ⟨⟨hx, hhx⟩, h2.hash v rfl⟩) hroom).mono ?_
                    (fun _ _ => Iff.rfl) (fun _ => Or.inl ?_)
                  · rw [htoks]; exact hF2
                  · rw [htoks]; omega
              cases k1 with
              | rbrace => exact .throw (by rw [hF, hs1]; exact tall_none hlenv (by rw [htk1]; rfl))
              | rparen => exact .throw (by rw [hF, hs1]; exact tall_none hlenv (by rw [htk1]; rfl))
              | rbracket => exact contv (Or.inl rfl)
              | _ => exact contv (Or.inr rfl)
        cases k with
        | rbrace => exact .ok (close hs (by rw [htk]; rfl) (by rw [adv_toks, hs]; rfl))
        | rparen => exact .ok (close hs (by rw [htk]; rfl) (by rw [adv_toks, err_toks, hs]; rfl))
        | rbracket => exact .ok (close hs (by rw [htk]; rfl) (by rw [adv_toks, err_toks, hs]; rfl))
        | _ => exact cont (by rw [htk]; rfl)

theorem same_top {L : Lib} (hL : Lawful L) (D : Nat) : ∀ (fuel : Nat) (s : PS) (acc : List Node),
    Same (parseTopD L D fuel s acc) (parseTop L fuel s acc) (tallest [] s.toks ≤ D) (fun _ _ => True) (2 * s.toks.length + 2 ≤ fuel) := by
  intro fuel
  induction fuel with
  | zero => intro s acc; exact .fuel (by omega)
  | succ fuel ih =>
    intro s acc
    simp only [parseTopD, parseTop]
    cases hs : s.toks with
    | nil => exact .ok ⟨fun _ => trivial, fun _ => Nat.zero_le _⟩
    | cons t ts =>
      simp only
      rw [← hs]
      refine ((same_all hL D fuel).1 D s [] (by simp)).bind ((good_all hL fuel).1 s) (by omega) (fun s1 r h hF => ?_)
      have hsh := h.shorter (by rw [hs]; simp)
      cases r with
      | some x => exact (ih s1 _).mono hF (fun _ _ => Iff.rfl) (fun _ => Or.inl (by omega))
      | none =>
        obtain ⟨hc, hs1⟩ := h.trackNone rfl _ _ hs
        refine (ih s1 _).mono ?_ (fun _ _ => Iff.rfl) (fun _ => Or.inl (by omega))
        rw [hs, hs1]
        refine tall_cons (Nat.zero_le _) ?_
        cases hk : t.kind <;> rw [hk] at hc <;> first | rfl | cases hc

end Ab.Edn.Stack
